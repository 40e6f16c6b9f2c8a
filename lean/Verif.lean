import Verif.Model.Py
import Verif.Model.Core
import Verif.Props.Core
import Verif.Model.Domain
import Verif.Props.Domain
import Verif.Model.Moves
import Verif.Props.Moves
import Verif.Model.Results
import Verif.Props.Results
import Verif.Model.Knapsack
import Verif.Props.Knapsack
import Verif.Model.Sched
import Verif.Props.Sched
import Verif.Props.SchedRes
import Verif.Model.Policies
import Verif.Props.Policies
import Verif.Model.Worlds
import Verif.Props.Worlds
import Verif.Model.Search
import Verif.Props.Search
import Verif.Props.Lrta
import Verif.Model.LocalSearch
import Verif.Props.LocalSearch
import Verif.Model.Durations
import Verif.Props.Durations
import Verif.Model.Objectives
import Verif.Props.Objectives
import Verif.Model.Sort
import Verif.Model.Coloring
import Verif.Props.Coloring
import Verif.Model.Facility
import Verif.Props.Facility
import Verif.Model.Vrp
import Verif.Props.Vrp
import Verif.Model.Tsp
import Verif.Props.Tsp
import Verif.Props.Rcpsp
import Verif.Props.RcpspContinue
import Verif.Model.Cpm
import Verif.Lemmas.Cpm
import Verif.Lemmas.CpmPath
import Verif.Props.Cpm
import Verif.Model.Parallel
import Verif.Lemmas.Parallel
import Verif.Props.Parallel
import Verif.Model.Shm
import Verif.Props.Shm
import Verif.Props.MovesEffect
import Verif.Props.ResultsStore
import Verif.Props.KnapsackQueue
import Verif.Lemmas.SchedSafe
import Verif.Lemmas.SchedLive
import Verif.Props.SchedSafe
import Verif.Props.CppAStar
import Verif.Model.Mdp
import Verif.Model.Lrtdp
import Verif.Lemmas.Mdp
import Verif.Lemmas.Lrtdp
import Verif.Props.Lrtdp
import Verif.Model.AoStar
import Verif.Lemmas.AoStar
import Verif.Lemmas.AoStarLoop
import Verif.Lemmas.AoStarEnds
import Verif.Lemmas.AoStarMore
import Verif.Props.AoStar
import Verif.Model.PlanGraph
import Verif.Model.Iw
import Verif.Lemmas.PlanGraph
import Verif.Lemmas.Tuples
import Verif.Lemmas.Iw
import Verif.Lemmas.IwWidth
import Verif.Lemmas.IwGuarantee
import Verif.Props.Iw
import Verif.Model.Bfws
import Verif.Lemmas.PlanHeap
import Verif.Lemmas.Bfws
import Verif.Props.Bfws
import Verif.Model.Ilao
import Verif.Lemmas.Ilao
import Verif.Lemmas.IlaoRun
import Verif.Lemmas.IlaoStop
import Verif.Props.Ilao
import Verif.Model.Pile
import Verif.Lemmas.Pile
import Verif.Lemmas.PileRule
import Verif.Props.Pile
import Verif.Model.Calendar
import Verif.Lemmas.Calendar
import Verif.Props.Calendar
import Verif.Model.Mcts
import Verif.Lemmas.Mcts
import Verif.Props.Mcts
import Verif.Model.MultiSkill
import Verif.Lemmas.MultiSkill
import Verif.Lemmas.MultiSkillLoop
import Verif.Lemmas.MultiSkillSpec
import Verif.Lemmas.MultiSkillCheck
import Verif.Props.MultiSkill
import Verif.Props.MultiSkillCheck
import Verif.Model.LeftShift
import Verif.Lemmas.LeftShift
import Verif.Props.LeftShift
import Verif.Lemmas.RcpspRegen
import Verif.Props.RcpspRegen
import Verif.Model.MsEncoding
import Verif.Props.MsEncoding
import Verif.Model.MsRep
import Verif.Lemmas.MsRep
import Verif.Props.MsRep
import Verif.Model.Defaults
import Verif.Props.Defaults
import Verif.Props.Events
import Verif.Model.SchedRollout
import Verif.Lemmas.SchedReplay
import Verif.Lemmas.SchedTerm
import Verif.Lemmas.SchedFollow
import Verif.Lemmas.SchedSpent
import Verif.Lemmas.SchedList
import Verif.Props.Replay
import Verif.Props.Term
import Verif.Props.ListPlay
import Verif.Model.Binding
import Verif.Lemmas.SchedKeys
import Verif.Lemmas.RcpspInside
import Verif.Lemmas.Binding
import Verif.Lemmas.BindingAgree
import Verif.Lemmas.BindingNew
import Verif.Lemmas.BindingPlan
import Verif.Lemmas.BindingRun
import Verif.Lemmas.BindingTrip
import Verif.Props.Binding
import Verif.Model.Stochastic
import Verif.Lemmas.Stochastic
import Verif.Props.Stochastic
import Verif.Model.Milp
import Verif.Model.ColoringLp
import Verif.Lemmas.Milp
import Verif.Lemmas.ColoringLp
import Verif.Props.ColoringLp
import Verif.Model.FacilityLp
import Verif.Lemmas.FacilityLp
import Verif.Props.FacilityLp
import Verif.Model.KnapsackLp
import Verif.Lemmas.KnapsackLp
import Verif.Props.KnapsackLp
import Verif.Model.RcpspLp
import Verif.Lemmas.RcpspLp
import Verif.Lemmas.RcpspLpSingle
import Verif.Props.RcpspLp
import Verif.Props.RcpspLpSingle
import Verif.Model.TspLp
import Verif.Lemmas.TspLp
import Verif.Lemmas.TspLpTour
import Verif.Lemmas.TspLpCycle
import Verif.Lemmas.TspLpJoin
import Verif.Lemmas.TspLpSolve
import Verif.Lemmas.TspLpGraph
import Verif.Lemmas.TspLpPruned
import Verif.Props.TspLp
import Verif.Model.Explore
import Verif.Lemmas.Explore
import Verif.Lemmas.ExploreM
import Verif.Props.Explore
import Verif.Props.ExploreM
import Verif.Model.Lns
import Verif.Lemmas.Lns
import Verif.Lemmas.LnsCp
import Verif.Props.Lns
import Verif.Props.LnsCp
import Verif.Model.LpLns
import Verif.Lemmas.LpLns
import Verif.Lemmas.LpLnsRcpsp
import Verif.Props.LpLns
import Verif.Props.LpLnsRcpsp
import Verif.Model.Riw
import Verif.Lemmas.Riw
import Verif.Lemmas.RiwRun
import Verif.Lemmas.RiwDepth
import Verif.Lemmas.RiwBackup
import Verif.Lemmas.RiwAcyclic
import Verif.Lemmas.RiwStop
import Verif.Lemmas.RiwNovelty
import Verif.Props.Riw
import Verif.Props.RiwAcyclic
import Verif.Lemmas.RiwTree
import Verif.Lemmas.RiwTreeRun
import Verif.Lemmas.RiwTreeSolve
import Verif.Lemmas.RiwTreeTag
import Verif.Props.RiwTree
import Verif.Model.PolicyEval
import Verif.Lemmas.PolicyEval
import Verif.Lemmas.PolicyCost
import Verif.Lemmas.PolicyRoll
import Verif.Props.PolicyEval
import Verif.Model.Ttp
import Verif.Lemmas.Ttp
import Verif.Props.Ttp
import Verif.Model.Pomcp
import Verif.Lemmas.Pomcp
import Verif.Props.Pomcp
import Verif.Model.Gym
import Verif.Lemmas.GymBee
import Verif.Lemmas.Gym
import Verif.Lemmas.GymStable
import Verif.Lemmas.GymBits
import Verif.Props.Gym
import Verif.Model.GymEnv
import Verif.Lemmas.GymEnv
import Verif.Props.GymEnv
import Verif.Model.Cgp
import Verif.Lemmas.Cgp
import Verif.Lemmas.CgpGenes
import Verif.Lemmas.CgpSpace
import Verif.Props.Cgp
import Verif.Model.CpmSgs
import Verif.Lemmas.CpmSgs
import Verif.Lemmas.CpmSgsTime
import Verif.Props.CpmSgs
import Verif.Model.PilePolicy
import Verif.Lemmas.PilePolicy
import Verif.Props.PilePolicy
import Verif.Model.SimpleGreedy
import Verif.Props.SimpleGreedy
import Verif.Model.Gphh
import Verif.Lemmas.Gphh
import Verif.Lemmas.GphhPlay
import Verif.Props.Gphh
import Verif.Props.GphhPlay
import Verif.Model.MsLp
import Verif.Lemmas.MsLp
import Verif.Lemmas.MsLpPlan
import Verif.Lemmas.MsLpRead
import Verif.Props.MsLp
import Verif.Props.MsLpMore
import Verif.Model.Hindsight
import Verif.Lemmas.Hindsight
import Verif.Lemmas.HindsightMore
import Verif.Props.Hindsight
import Verif.Model.SchedMore
import Verif.Lemmas.SchedMore
import Verif.Props.SchedMore
import Verif.Model.SchedUnits
import Verif.Lemmas.SchedUnits
import Verif.Props.SchedUnits
import Verif.Model.Parse
import Verif.Lemmas.Parse
import Verif.Lemmas.Psplib
import Verif.Props.Parse
import Verif.Props.Psplib
import Verif.Props.TtpParse
import Verif.Model.Ars
import Verif.Lemmas.Ars
import Verif.Props.Ars
import Verif.Model.Ga
import Verif.Props.Ga
import Verif.Model.GraphApi
import Verif.Lemmas.GraphApi
import Verif.Props.GraphApi
import Verif.Model.Views
import Verif.Lemmas.Views
import Verif.Lemmas.Units
import Verif.Lemmas.UnitsRun
import Verif.Props.Views
import Verif.Props.Units
import Verif.Model.Helpers
import Verif.Lemmas.Helpers
import Verif.Props.Helpers
import Verif.Model.Correct
import Verif.Lemmas.Correct
import Verif.Props.Correct
import Verif.Model.Robust
import Verif.Lemmas.Robust
import Verif.Props.Robust
import Verif.Lemmas.Uncertain
import Verif.Props.Uncertain
import Verif.Props.UncertainPb
import Verif.Model.CpRcpsp
import Verif.Lemmas.CpRcpsp
import Verif.Props.CpRcpsp
import Verif.Model.CpMulti
import Verif.Lemmas.CpMulti
import Verif.Props.CpMulti
import Verif.Model.CpKnapsack
import Verif.Lemmas.CpKnapsack
import Verif.Props.CpKnapsack
import Verif.Model.CpFacility
import Verif.Lemmas.CpFacility
import Verif.Props.CpFacility
import Verif.Model.CpColoring
import Verif.Lemmas.CpColoring
import Verif.Props.CpColoring
import Verif.Model.CpTsp
import Verif.Lemmas.CpTsp
import Verif.Props.CpTsp
import Verif.Model.CpModes
import Verif.Lemmas.CpModes
import Verif.Props.CpModes
import Verif.Model.CpNeigh
import Verif.Lemmas.CpNeigh
import Verif.Props.CpNeigh
import Verif.Model.CalBreaks
import Verif.Lemmas.CalBreaks
import Verif.Props.CalBreaks
import Verif.Model.MaxEnt
import Verif.Lemmas.MaxEnt
import Verif.Props.MaxEnt
import Verif.Model.CpVrp
import Verif.Lemmas.CpVrp
import Verif.Props.CpVrp
import Verif.Model.Comparator
import Verif.Lemmas.Comparator
import Verif.Props.Comparator
import Verif.Model.Imopse
import Verif.Lemmas.Imopse
import Verif.Props.Imopse
import Verif.Model.ImopseRead
import Verif.Lemmas.ImopseRead
import Verif.Props.ImopseRead
import Verif.Model.TspTools
import Verif.Lemmas.TspTools
import Verif.Props.TspTools
import Verif.Model.VrpTools
import Verif.Lemmas.VrpTools
import Verif.Props.VrpTools
import Verif.Model.OrTools
import Verif.Lemmas.OrTools
import Verif.Props.OrTools
import Verif.Model.MsLpLns
import Verif.Props.MsLpLns
import Verif.Model.Registry
import Verif.Props.Registry
import Verif.Model.GanttLp
import Verif.Props.GanttLp
import Verif.Model.GanttWork
import Verif.Props.GanttWork
import Verif.Model.CgpFuncs
import Verif.Props.CgpFuncs
import Verif.Model.SkLoader
import Verif.Props.SkLoader
import Verif.Model.Portfolio
import Verif.Props.Portfolio
import Verif.Model.RcpspMut
import Verif.Props.RcpspMut
