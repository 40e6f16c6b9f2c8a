import Verif.Lemmas.Parse
import Verif.Props.Parse
/-
Properties of the reader of travelling thief files: C166.
-/
namespace Verif.Parse
open Verif

theorem fileLines_text {ls : List (List Char)} (hne : ls ≠ []) (h : ∀ l ∈ ls, '\n' ∉ l)
    (hl : ls.getLast? ≠ some []) : fileLines (text ls) = ls := by
  unfold fileLines
  simp only [pyLines_text hne h]
  rw [if_neg hl]

theorem fileLines_text_end {ls : List (List Char)} (h : ∀ l ∈ ls, '\n' ∉ l) :
    fileLines (text (ls ++ [[]])) = ls := by
  unfold fileLines
  rw [pyLines_text (by simp) (by
    intro l hl
    rcases List.mem_append.1 hl with hl | hl
    · exact h l hl
    · simp only [List.mem_singleton] at hl; subst hl; simp)]
  simp

/-- A line `key … : word …`. -/
def Header (key : String) (w : List Char) (l : List Char) : Prop :=
  ∃ pad v, l = key.toList ++ (pad ++ ':' :: v) ∧ ':' ∉ pad ∧ Begins [w] v

theorem field_header {key : String} {w l : List Char} (hk : ':' ∉ key.toList) (h : Header key w l) :
    field l = .ok w := by
  obtain ⟨pad, v, rfl, hp, hb⟩ := h
  obtain ⟨more, hw⟩ := begins_words hb
  have hall : ∀ c ∈ key.toList ++ pad, decide (c ≠ ':') = true := by
    intro c hc
    simp only [ne_eq, decide_not, Bool.not_eq_true', decide_eq_false_iff_not]
    intro e; subst e
    rcases List.mem_append.1 hc with hc | hc
    · exact hk hc
    · exact hp hc
  unfold field
  rw [← List.append_assoc, List.dropWhile_append_of_pos hall]
  simp only [ne_eq, decide_not, List.dropWhile_cons, decide_true, Bool.not_true, Bool.false_eq_true, if_false]
  rw [hw]; rfl

theorem row_ok {width : Nat} {f : Nat → Int → Int} : ∀ (ns : List Int) (k : Nat), k + ns.length ≤ width →
    row width f k (ns.map writeInt) = .ok (ns.mapIdx fun i n => f (k + i) n) := by
  intro ns
  induction ns with
  | nil => intro k _; rfl
  | cons n ns ih =>
    intro k hk
    simp only [List.length_cons] at hk
    rw [List.map_cons, row, pyInt_write, bind_ok, if_pos (by omega), ih (k + 1) (by omega), bind_ok,
      List.mapIdx_cons]
    congr 2
    apply List.ext_getElem?
    intro i
    simp only [List.getElem?_mapIdx]
    congr 1
    funext n
    congr 1; omega

/-- Every line of a section spells the numbers of a row. -/
theorem rows_ok {width : Nat} {f : Nat → Nat → Int → Int} {rs : List (List Int)} {ls : List (List Char)}
    (h : List.Forall₂ (fun r l => Spells (r.map writeInt) l) rs ls) (hw : ∀ r ∈ rs, r.length ≤ width)
    (rest : List (List Char)) : ∀ i : Nat,
    rows width f i rs.length (ls ++ rest) =
      .ok (rs.mapIdx fun j r => r.mapIdx fun k n => f (i + j) k n, rest) := by
  induction h with
  | nil => intro i; rfl
  | cons hr hrest ih =>
    rename_i r l rs ls
    intro i
    rw [List.length_cons, List.cons_append, rows, List.headD_cons, pyWords_spells hr,
      row_ok r 0 (by have := hw r (by simp); omega), bind_ok, List.drop_one, List.tail_cons,
      ih (fun r hr => hw r (by simp [hr])) (i + 1), bind_ok, List.mapIdx_cons]
    congr 2
    congr 1
    · congr 1
      funext k n
      simp
    · apply List.ext_getElem?
      intro j
      simp only [List.getElem?_mapIdx]
      congr 1
      funext r
      congr 1
      funext k n
      congr 1; omega

theorem ttpLoop_step {fuel : Nat} {s s' : Ttp} {line : List Char} {rest rest' : List (List Char)}
    (h : ttpStep s line rest = .ok (s', rest')) :
    ttpLoop (fuel + 1) s (line :: rest) = ttpLoop fuel s' rest' := by
  rw [ttpLoop, h, bind_ok]

/-- More fuel than lines does not matter. -/
theorem rows_rest {width : Nat} {f : Nat → Nat → Int → Int} : ∀ (n i : Nat) (ls : List (List Char)) r ls',
    rows width f i n ls = .ok (r, ls') → ls'.length ≤ ls.length := by
  intro n
  induction n with
  | zero => intro i ls r ls' h; simp only [rows, Except.ok.injEq, Prod.mk.injEq] at h; rw [h.2]; exact Nat.le_refl _
  | succ n ih =>
    intro i ls r ls' h
    rw [rows] at h
    obtain ⟨a, _, h⟩ := (bind_eq_ok ..).1 h
    obtain ⟨p, hp, h⟩ := (bind_eq_ok ..).1 h
    simp only [Except.ok.injEq, Prod.mk.injEq] at h
    have := ih (i + 1) (ls.drop 1) p.1 p.2 hp
    rw [← h.2]
    simp only [List.length_drop] at this
    omega

theorem ttpLoop_nil (fuel : Nat) (s : Ttp) : ttpLoop fuel s [] = .ok s := by
  cases fuel <;> rfl

/-- The lines of a travelling thief file in the order of the published instances. -/
structure TtpFile where
  name : List Char
  dataType : List Char
  dim : List Char
  count : List Char
  capacity : List Char
  minSpeed : List Char
  maxSpeed : List Char
  renting : List Char
  edge : List Char
  nodeHead : List Char
  nodes : List (List Char)
  itemHead : List Char
  items : List (List Char)

/-- All lines. -/
def TtpFile.lines (f : TtpFile) : List (List Char) :=
  f.name :: f.dataType :: f.dim :: f.count :: f.capacity :: f.minSpeed :: f.maxSpeed :: f.renting :: f.edge ::
    f.nodeHead :: (f.nodes ++ f.itemHead :: f.items)

/-- The file writes an instance: the nodes are listed from 1 on with their coordinates, the items
from 1 on with profit, weight and the number of their node. -/
structure WritesTtp (f : TtpFile) (name type edge : List Char) (cap lo hi rent : Rat)
    (nodes : List (Int × Int)) (items : List (Int × Int × Int)) : Prop where
  whole : ∀ l ∈ f.lines, '\n' ∉ l
  name : Header "PROBLEM NAME" name f.name
  type : Header "KNAPSACK DATA TYPE" type f.dataType
  dim : Header "DIMENSION" (writeInt nodes.length) f.dim
  count : Header "NUMBER OF ITEMS" (writeInt items.length) f.count
  capacity : ∃ w, Writes w cap ∧ Header "CAPACITY OF KNAPSACK" w f.capacity
  minSpeed : ∃ w, Writes w lo ∧ Header "MIN SPEED" w f.minSpeed
  maxSpeed : ∃ w, Writes w hi ∧ Header "MAX SPEED" w f.maxSpeed
  renting : ∃ w, Writes w rent ∧ Header "RENTING RATIO" w f.renting
  edge : Header "EDGE_WEIGHT_TYPE" edge f.edge
  nodeHead : ∃ s, f.nodeHead = "NODE_COORD_SECTION".toList ++ s
  nodeLines : List.Forall₂ (fun r l => Spells (r.map writeInt) l)
    (nodes.mapIdx fun i p => [(i : Int) + 1, p.1, p.2]) f.nodes
  itemHead : ∃ s, f.itemHead = "ITEMS SECTION".toList ++ s
  itemLines : List.Forall₂ (fun r l => Spells (r.map writeInt) l)
    (items.mapIdx fun i p => [(i : Int) + 1, p.1, p.2.1, p.2.2]) f.items

/-- **C166** (reading).  A travelling thief file is read as exactly the instance it writes, for
every instance and every layout of its lines: the names, the numbers, the nodes numbered from
zero with their coordinates, and the items numbered from zero with profit, weight and their node,
counted from zero.  The arrays hold the same numbers as the lists. -/
theorem C166_read (f : TtpFile) (name type edge : List Char) (cap lo hi rent : Rat)
    (nodes : List (Int × Int)) (items : List (Int × Int × Int))
    (h : WritesTtp f name type edge cap lo hi rent nodes items) :
    ttp (text (f.lines ++ [[]])) =
      .ok { name := some name
            dataType := some type
            nodeCount := some nodes.length
            itemCount := some items.length
            capacity := some cap
            minSpeed := some lo
            maxSpeed := some hi
            renting := some rent
            edgeType := some edge
            nodes := some (nodes.mapIdx fun i p => [(i : Int), p.1, p.2])
            items := some (items.mapIdx fun i p => [(i : Int), p.1, p.2.1, p.2.2 - 1])
            nodeArray := some (nodes.mapIdx fun i p => [(i : Int), p.1, p.2])
            itemArray := some (items.mapIdx fun i p => [(i : Int), p.1, p.2.1, p.2.2 - 1]) } := by
  obtain ⟨wc, hwc, hc⟩ := h.capacity
  obtain ⟨wl, hwl, hlo⟩ := h.minSpeed
  obtain ⟨wh, hwh, hhi⟩ := h.maxSpeed
  obtain ⟨wr, hwr, hre⟩ := h.renting
  obtain ⟨sn, hsn⟩ := h.nodeHead
  obtain ⟨si, hsi⟩ := h.itemHead
  have hstart : ∀ {key : String} {w l : List Char}, Header key w l → ∃ t, l = key.toList ++ t := by
    intro key w l ⟨pad, v, e, _⟩; exact ⟨_, e⟩
  have f1 := field_header (by decide +kernel) h.name
  have f2 := field_header (by decide +kernel) h.type
  have f3 := field_header (by decide +kernel) h.dim
  have f4 := field_header (by decide +kernel) h.count
  have f5 := field_header (by decide +kernel) hc
  have f6 := field_header (by decide +kernel) hlo
  have f7 := field_header (by decide +kernel) hhi
  have f8 := field_header (by decide +kernel) hre
  have f9 := field_header (by decide +kernel) h.edge
  obtain ⟨t1, e1⟩ := hstart h.name
  obtain ⟨t2, e2⟩ := hstart h.type
  obtain ⟨t3, e3⟩ := hstart h.dim
  obtain ⟨t4, e4⟩ := hstart h.count
  obtain ⟨t5, e5⟩ := hstart hc
  obtain ⟨t6, e6⟩ := hstart hlo
  obtain ⟨t7, e7⟩ := hstart hhi
  obtain ⟨t8, e8⟩ := hstart hre
  obtain ⟨t9, e9⟩ := hstart h.edge
  have hlen : (nodes.mapIdx fun i p => [(i : Int) + 1, p.1, p.2]).length = nodes.length := List.length_mapIdx
  have hlen' : (items.mapIdx fun i p => [(i : Int) + 1, p.1, p.2.1, p.2.2]).length = items.length := List.length_mapIdx
  have hnodes : rows 3 nodeNumber 0 nodes.length (f.nodes ++ f.itemHead :: f.items) =
      .ok (nodes.mapIdx fun i p => [(i : Int), p.1, p.2], f.itemHead :: f.items) := by
    have := rows_ok (width := 3) (f := nodeNumber) h.nodeLines (by
      intro r hr
      obtain ⟨i, hi⟩ := List.getElem?_of_mem hr
      rw [List.getElem?_mapIdx, Option.map_eq_some_iff] at hi
      obtain ⟨p, _, rfl⟩ := hi
      simp) (f.itemHead :: f.items) 0
    rw [hlen] at this
    rw [this]
    congr 2
    apply List.ext_getElem?
    intro j
    simp only [List.getElem?_mapIdx, Option.map_map]
    congr 1
    funext p
    simp [nodeNumber]
  have hitems : rows 4 itemNumber 0 items.length f.items =
      .ok (items.mapIdx fun i p => [(i : Int), p.1, p.2.1, p.2.2 - 1], []) := by
    have := rows_ok (width := 4) (f := itemNumber) h.itemLines (by
      intro r hr
      obtain ⟨i, hi⟩ := List.getElem?_of_mem hr
      rw [List.getElem?_mapIdx, Option.map_eq_some_iff] at hi
      obtain ⟨p, _, rfl⟩ := hi
      simp) [] 0
    rw [hlen', List.append_nil] at this
    rw [this]
    congr 2
    apply List.ext_getElem?
    intro j
    simp only [List.getElem?_mapIdx, Option.map_map]
    congr 1
    funext p
    simp [itemNumber]
  have hpad : (nodes.mapIdx fun i p => [(i : Int), p.1, p.2]).map (padded 3) =
      nodes.mapIdx fun i p => [(i : Int), p.1, p.2] := by
    apply List.ext_getElem?
    intro j
    simp only [List.getElem?_map, List.getElem?_mapIdx, Option.map_map]
    congr 1
  have hpad' : (items.mapIdx fun i p => [(i : Int), p.1, p.2.1, p.2.2 - 1]).map (padded 4) =
      items.mapIdx fun i p => [(i : Int), p.1, p.2.1, p.2.2 - 1] := by
    apply List.ext_getElem?
    intro j
    simp only [List.getElem?_map, List.getElem?_mapIdx, Option.map_map]
    congr 1
  have z1 : zeros (some (nodes.length : Int)) = .ok nodes.length := by
    unfold zeros; simp only; rw [if_neg (by omega)]; rfl
  have z2 : zeros (some (items.length : Int)) = .ok items.length := by
    unfold zeros; simp only; rw [if_neg (by omega)]; rfl
  have st1 : ∀ s rest, ttpStep s f.name rest = .ok ({ s with name := some name }, rest) := by
    intro s rest; unfold ttpStep; rw [f1, e1]; simp [starts]
  have st2 : ∀ s rest, ttpStep s f.dataType rest = .ok ({ s with dataType := some type }, rest) := by
    intro s rest; unfold ttpStep; rw [f2, e2]; simp [starts]
  have st3 : ∀ s rest, ttpStep s f.dim rest = .ok ({ s with nodeCount := some (nodes.length : Int) }, rest) := by
    intro s rest; unfold ttpStep; rw [f3, e3]; simp [starts, pyInt_write]
  have st4 : ∀ s rest, ttpStep s f.count rest = .ok ({ s with itemCount := some (items.length : Int) }, rest) := by
    intro s rest; unfold ttpStep; rw [f4, e4]; simp [starts, pyInt_write]
  have st5 : ∀ s rest, ttpStep s f.capacity rest = .ok ({ s with capacity := some cap }, rest) := by
    intro s rest; unfold ttpStep; rw [f5, e5]; simp [starts, pyFloat_writes hwc]
  have st6 : ∀ s rest, ttpStep s f.minSpeed rest = .ok ({ s with minSpeed := some lo }, rest) := by
    intro s rest; unfold ttpStep; rw [f6, e6]; simp [starts, pyFloat_writes hwl]
  have st7 : ∀ s rest, ttpStep s f.maxSpeed rest = .ok ({ s with maxSpeed := some hi }, rest) := by
    intro s rest; unfold ttpStep; rw [f7, e7]; simp [starts, pyFloat_writes hwh]
  have st8 : ∀ s rest, ttpStep s f.renting rest = .ok ({ s with renting := some rent }, rest) := by
    intro s rest; unfold ttpStep; rw [f8, e8]; simp [starts, pyFloat_writes hwr]
  have st9 : ∀ s rest, ttpStep s f.edge rest = .ok ({ s with edgeType := some edge }, rest) := by
    intro s rest; unfold ttpStep; rw [f9, e9]; simp [starts]
  have st10 : ∀ s : Ttp, s.nodeCount = some (nodes.length : Int) →
      ttpStep s f.nodeHead (f.nodes ++ f.itemHead :: f.items) =
        .ok ({ s with nodes := some (nodes.mapIdx fun i p => [(i : Int), p.1, p.2]), nodeArray := some (nodes.mapIdx fun i p => [(i : Int), p.1, p.2]) },
          f.itemHead :: f.items) := by
    intro s hs
    unfold ttpStep
    rw [hs, z1, bind_ok, hnodes, bind_ok, hpad, hsn]
    simp [starts]
  have st11 : ∀ s : Ttp, s.itemCount = some (items.length : Int) →
      ttpStep s f.itemHead f.items =
        .ok ({ s with items := some (items.mapIdx fun i p => [(i : Int), p.1, p.2.1, p.2.2 - 1]), itemArray := some (items.mapIdx fun i p => [(i : Int), p.1, p.2.1, p.2.2 - 1]) },
          []) := by
    intro s hs
    unfold ttpStep
    rw [hs, z2, bind_ok, hitems, bind_ok, hpad', hsi]
    simp [starts]
  unfold ttp
  rw [fileLines_text_end h.whole]
  have hfuel : f.lines.length = (f.nodes.length + f.items.length) + 11 := by
    simp only [TtpFile.lines, List.length_cons, List.length_append]; omega
  simp only [hfuel]
  unfold TtpFile.lines
  rw [ttpLoop_step (st1 ..), ttpLoop_step (st2 ..), ttpLoop_step (st3 ..), ttpLoop_step (st4 ..),
    ttpLoop_step (st5 ..), ttpLoop_step (st6 ..), ttpLoop_step (st7 ..), ttpLoop_step (st8 ..),
    ttpLoop_step (st9 ..), ttpLoop_step (st10 _ rfl), ttpLoop_step (st11 _ rfl), ttpLoop_nil]

/-- The beginning of a small file. -/
def smallTtp (nodes : String) : List Char :=
  chars ("PROBLEM NAME: \ttiny\nKNAPSACK DATA TYPE: uncorrelated\nDIMENSION: 3\nNUMBER OF ITEMS: 1\n" ++
    "CAPACITY OF KNAPSACK: 10\nMIN SPEED: 0.1\nMAX SPEED: 1\nRENTING RATIO: 2.50\nEDGE_WEIGHT_TYPE:\tCEIL_2D\n" ++
    "NODE_COORD_SECTION\t(INDEX, X, Y):\n" ++ nodes ++ "ITEMS SECTION\t(INDEX, PROFIT, WEIGHT, NODE):\n1 20 4 2\n")

example : ttp (smallTtp "1 0 0\n2 3 4\n3 6 8\n") = .ok
    { name := some (chars "tiny"), dataType := some (chars "uncorrelated"), nodeCount := some 3, itemCount := some 1
      capacity := some 10, minSpeed := some (1 / 10), maxSpeed := some 1, renting := some (5 / 2)
      edgeType := some (chars "CEIL_2D")
      nodes := some [[0, 0, 0], [1, 3, 4], [2, 6, 8]], items := some [[0, 20, 4, 1]]
      nodeArray := some [[0, 0, 0], [1, 3, 4], [2, 6, 8]], itemArray := some [[0, 20, 4, 1]] } := by
  decide +kernel

/-- The lines of a smaller file. -/
def tinyTtp : TtpFile where
  name := chars "PROBLEM NAME: a"
  dataType := chars "KNAPSACK DATA TYPE: b"
  dim := chars "DIMENSION:\t2"
  count := chars "NUMBER OF ITEMS: 1"
  capacity := chars "CAPACITY OF KNAPSACK: 9"
  minSpeed := chars "MIN SPEED: 0.1"
  maxSpeed := chars "MAX SPEED: 1"
  renting := chars "RENTING RATIO: 2.5"
  edge := chars "EDGE_WEIGHT_TYPE: c"
  nodeHead := chars "NODE_COORD_SECTION (INDEX, X, Y):"
  nodes := [chars "1 0 -5", chars "2 3 4"]
  itemHead := chars "ITEMS SECTION"
  items := [chars " 1 20 4 2"]

example : WritesTtp tinyTtp ['a'] ['b'] ['c'] 9 (1 / 10) 1 (5 / 2) [(0, -5), (3, 4)] [(20, 4, 2)] := by
  have sp : ∀ ws l, pyWords l = ws → Spells ws l := fun ws l h => h ▸ spells_pyWords l
  have hd : ∀ (key : String) w l v, l = key.toList ++ ':' :: v → '\n' ∉ v → pyWords v = [w] → Header key w l :=
    fun key w l v h1 h2 h3 => ⟨[], v, h1, by simp, h2, [], sp _ _ h3⟩
  exact {
    whole := by decide +kernel
    name := hd _ _ _ (chars " a") (by decide +kernel) (by decide +kernel) (by decide +kernel)
    type := hd _ _ _ (chars " b") (by decide +kernel) (by decide +kernel) (by decide +kernel)
    dim := hd _ _ _ (chars "\t2") (by decide +kernel) (by decide +kernel) (by decide +kernel)
    count := hd _ _ _ (chars " 1") (by decide +kernel) (by decide +kernel) (by decide +kernel)
    capacity := ⟨chars "9", ⟨false, 9, 0, by decide +kernel, by decide +kernel⟩,
      hd _ _ _ (chars " 9") (by decide +kernel) (by decide +kernel) (by decide +kernel)⟩
    minSpeed := ⟨chars "0.1", ⟨false, 1, 1, by decide +kernel, by decide +kernel⟩,
      hd _ _ _ (chars " 0.1") (by decide +kernel) (by decide +kernel) (by decide +kernel)⟩
    maxSpeed := ⟨chars "1", ⟨false, 1, 0, by decide +kernel, by decide +kernel⟩,
      hd _ _ _ (chars " 1") (by decide +kernel) (by decide +kernel) (by decide +kernel)⟩
    renting := ⟨chars "2.5", ⟨false, 25, 1, by decide +kernel, by decide +kernel⟩,
      hd _ _ _ (chars " 2.5") (by decide +kernel) (by decide +kernel) (by decide +kernel)⟩
    edge := hd _ _ _ (chars " c") (by decide +kernel) (by decide +kernel) (by decide +kernel)
    nodeHead := ⟨chars " (INDEX, X, Y):", by decide +kernel⟩
    nodeLines := .cons (sp _ _ (by decide +kernel)) (.cons (sp _ _ (by decide +kernel)) .nil)
    itemHead := ⟨[], by decide +kernel⟩
    itemLines := .cons (sp _ _ (by decide +kernel)) .nil }

/-- The coordinates of the node of the first item. -/
def firstPlace (s : Ttp) : Option (Int × Int) :=
  match s.items, s.nodeArray with
  | some ((_ :: _ :: _ :: n :: _) :: _), some rows =>
    match rows[n.toNat]? with
    | some [_, x, y] => some (x, y)
    | _ => none
  | _, _ => none

/-- **C166** (refuted for the numbers of the nodes).  The number at the beginning of a line is
ignored, nodes are numbered by the place of their line: when the lines of nodes 1 and 2 are
exchanged, the item of node 2 moves to the place of node 1. -/
theorem C166_order_refuted :
    (ttp (smallTtp "1 0 0\n2 3 4\n3 6 8\n")).toOption.bind firstPlace = some (3, 4) ∧
      (ttp (smallTtp "2 3 4\n1 0 0\n3 6 8\n")).toOption.bind firstPlace = some (0, 0) ∧
      (ttp (smallTtp "2 3 4\n1 0 0\n3 6 8\n")).toOption.bind (·.nodes) = some [[0, 3, 4], [1, 0, 0], [2, 6, 8]] := by
  decide +kernel

/-- **C166** (refuted for missing words and lines).  A node without coordinates raises no
exception: the array places it at the origin, the dictionary of the node has no coordinates.  A
file that ends within the nodes raises no exception either: the missing nodes are at the origin. -/
theorem C166_missing_refuted :
    ((ttp (smallTtp "1 5 5\n2\n3 6 8\n")).toOption.map fun s => (s.nodes, s.nodeArray)) =
      some (some [[0, 5, 5], [1], [2, 6, 8]], some [[0, 5, 5], [1, 0, 0], [2, 6, 8]]) ∧
    ((ttp (chars "DIMENSION: 2\nNODE_COORD_SECTION\n1 5 5\n")).toOption.map fun s => (s.nodes, s.nodeArray)) =
      some (some [[0, 5, 5], []], some [[0, 5, 5], [0, 0, 0]]) := by
  decide +kernel

/-- **C166** (exceptions).  A section of nodes before the number of nodes raises `TypeError`, a
header without colon `ValueError`, without value `IndexError`, and decimal coordinates
`ValueError`. -/
theorem C166_exceptions (s : Ttp) (rest : List (List Char)) (t : List Char) :
    (s.nodeCount = none → ttpStep s ("NODE_COORD_SECTION".toList ++ t) rest = .error .typeError) ∧
    (':' ∉ t → ttpStep s ("DIMENSION".toList ++ t) rest = .error .valueError) ∧
    ((∀ c ∈ t, isSpace c = true) → ttpStep s ("DIMENSION:".toList ++ t) rest = .error .indexError) ∧
    ttp (smallTtp "1 0.5 0\n2 3 4\n3 6 8\n") = .error .valueError := by
  refine ⟨?_, ?_, ?_, by decide +kernel⟩
  · intro h
    unfold ttpStep
    simp [starts, h, zeros]
  · intro h
    have hf : field ("DIMENSION".toList ++ t) = .error .valueError := by
      unfold field
      have hall : ∀ c ∈ "DIMENSION".toList ++ t, decide (c ≠ ':') = true := by
        intro c hc
        simp only [ne_eq, decide_not, Bool.not_eq_true', decide_eq_false_iff_not]
        intro e; subst e
        rcases List.mem_append.1 hc with hc | hc
        · revert hc; decide
        · exact h hc
      have := List.dropWhile_append_of_pos (l₂ := []) hall
      rw [List.append_nil] at this
      rw [this]; rfl
    unfold ttpStep
    rw [hf]
    simp [starts]
  · intro h
    have hf : field ("DIMENSION:".toList ++ t) = .error .indexError := by
      have hw : pyWords t = [] := pyWords_spells (.none t h)
      unfold field
      have : ("DIMENSION:".toList ++ t).dropWhile (fun c => decide (c ≠ ':')) = ':' :: t := by
        simp
      rw [this]
      simp only [hw]; rfl
    unfold ttpStep
    rw [hf]
    simp [starts]

theorem row_long {width : Nat} {f : Nat → Int → Int} : ∀ (ns : List Int) (k : Nat), k ≤ width → width < k + ns.length →
    row width f k (ns.map writeInt) = .error .indexError := by
  intro ns
  induction ns with
  | nil => intro k _ h; simp only [List.length_nil] at h; omega
  | cons n ns ih =>
    intro k hk h
    simp only [List.length_cons] at h
    rw [List.map_cons, row, pyInt_write, bind_ok]
    by_cases hw : k < width
    · rw [if_pos hw, ih (k + 1) (by omega) (by omega), bind_error]
    · rw [if_neg hw]

/-- **C166** (too many numbers).  The first node with more than three numbers, and the first item with more
than four, raise `IndexError`. -/
theorem C166_long (s : Ttp) (t l : List Char) (rest : List (List Char)) (n : Nat) (ns : List Int)
    (hl : Spells (ns.map writeInt) l) :
    (s.nodeCount = some ((n + 1 : Nat) : Int) → 3 < ns.length →
      ttpStep s ("NODE_COORD_SECTION".toList ++ t) (l :: rest) = .error .indexError) ∧
    (s.itemCount = some ((n + 1 : Nat) : Int) → 4 < ns.length →
      ttpStep s ("ITEMS SECTION".toList ++ t) (l :: rest) = .error .indexError) := by
  have z : zeros (some ((n + 1 : Nat) : Int)) = .ok (n + 1) := by
    unfold zeros; simp only; rw [if_neg (by omega)]; rfl
  constructor
  · intro hc hn
    have hr : rows 3 nodeNumber 0 (n + 1) (l :: rest) = .error .indexError := by
      rw [rows, List.headD_cons, pyWords_spells hl, row_long ns 0 (by omega) (by omega), bind_error]
    unfold ttpStep
    rw [hc, z, bind_ok, hr]
    simp [starts]
  · intro hc hn
    have hr : rows 4 itemNumber 0 (n + 1) (l :: rest) = .error .indexError := by
      rw [rows, List.headD_cons, pyWords_spells hl, row_long ns 0 (by omega) (by omega), bind_error]
    unfold ttpStep
    rw [hc, z, bind_ok, hr]
    simp [starts]

example : ttp (smallTtp "1 0 0 9\n2 3 4\n3 6 8\n") = .error .indexError := by decide +kernel

end Verif.Parse
