import Verif.SoALaws2

/-!
# What `str(x)` shows (C65)

Model of `core/xtructure_decorators/string_format.py`: which records of a batch are formatted, and where.  The text of a single
record and the layout by `rich` are not modelled: a cell of the table is the record handed to the formatter, or `...`.
-/

namespace SoA

open Agg NArr

variable {α : Type} [Inhabited α]

/-- A cell of the printed table: a record, or `...`. -/
inductive Cell (α : Type) where
  | record (x : Tree α)
  | dots

/-- Outcome of `get_str` (string_format.py:41-134): the formatter applied to the instance itself, a table of cells with the batch
shape in the subtitle, or the message for unstructured data. -/
inductive Printed (α : Type) where
  | single (x : Tree α)
  | table (rows : List (List (Cell α))) (shape : List Nat)
  | unstructured

/-- `MAX_PRINT_BATCH_SIZE` (annotate.py:1). -/
def maxPrint : Nat := 4

/-- `SHOW_BATCH_SIZE` (annotate.py:2). -/
def showSize : Nat := 2

/-- `self[(i, j, ...)]`, also with the indices of `jnp.unravel_index` (string_format.py:98, 109, 113, 119). -/
def cellAt (x : Tree α) (j : List Nat) : Option (Cell α) :=
  (getitem x (.basic (j.map fun (i : Nat) => .int (i : Int)))).map .record

/-- `row_indices`, `col_indices` (string_format.py:68-82): `none` is the `None` that becomes `...`. -/
def gridIndices (n : Nat) : List (Option Nat) :=
  if n > showSize * 2 then
    (List.range showSize).map some ++ [none] ++ ((List.range showSize).map fun k => some (n - showSize + k))
  else (List.range n).map some

/-- One row of the grid (string_format.py:84-100). -/
def gridRow (x : Tree α) (cols : List (Option Nat)) : Option Nat → Option (List (Cell α))
  | none => some (cols.map fun _ => .dots)
  | some r => cols.mapM fun
    | none => some .dots
    | some c => cellAt x [r, c]

/-- The line of a batch that is not a grid (string_format.py:102-121). -/
def lineCells (x : Tree α) (b : List Nat) : Option (List (Cell α)) :=
  let n := size b
  if n ≤ maxPrint then (List.range n).mapM fun i => cellAt x (unravel b i)
  else
    ((List.range showSize).mapM fun i => cellAt x (unravel b i)).bind fun hd =>
      ((List.range showSize).mapM fun k => cellAt x (unravel b (n - showSize + k))).map fun tl => hd ++ [.dots] ++ tl

/-- `str(x)` (string_format.py:41-139). -/
def str (c : Cls α) (x : Tree α) : Option (Printed α) :=
  (batchShape c x).bind fun
    | .tup [] => some (.single x)
    | .tup [rows, cols] =>
      ((gridIndices rows).mapM (gridRow x (gridIndices cols))).map fun t => .table t [rows, cols]
    | .tup b => (lineCells x b).map fun l => .table [l] b
    | .unstr => some .unstructured

/-! ## Proofs -/

theorem resolve_tuple {b j : List Nat} (h : InB b j) :
    ∃ R, resolve (.basic (j.map fun (i : Nat) => .int (i : Int))) b = some R ∧ R.out = [] ∧ R.m = b.length ∧
      clampIdx b (R.src []) = j := by
  induction b generalizing j with
  | nil =>
    cases j with
    | nil => exact ⟨_, rfl, rfl, rfl, rfl⟩
    | cons a j => exact h.elim
  | cons d b ih =>
    cases j with
    | nil => exact h.elim
    | cons a j =>
      obtain ⟨R, h1, h2, h3, h4⟩ := ih h.2
      have h1' : resolveBasic (j.map fun (i : Nat) => .int (i : Int)) b = some R := h1
      refine ⟨⟨R.out, R.m + 1, fun k => wrapIdx d (a : Int) :: R.src k⟩, ?_, h2, ?_, ?_⟩
      · simp only [List.map_cons, resolve, resolveBasic, h1', Option.map_some]
      · simp only [List.length_cons, h3]
      · have ha : a < d := h.1
        simp only [clampIdx, h4]
        congr 1
        unfold wrapIdx
        rw [if_neg (by omega)]
        omega

/-- `x[(i, j, …)]` with one in-range index per batch axis is that record. -/
theorem getitem_tuple {b j : List Nat} {c : Cls α} {x : Tree α} (h : Conf b c x) (hj : InB b j) :
    getitem x (.basic (j.map fun (i : Nat) => .int (i : Int))) = some (item j x) := by
  obtain ⟨R, h1, h2, h3, h4⟩ := resolve_tuple hj
  obtain ⟨z, hz, hc, hi⟩ := getitem_records h h1
  rw [hz]
  congr 1
  have := hi [] (by rw [h2]; trivial) (by rw [h2] at *; rw [h4, h3, List.take_length]; exact hj)
  rw [h4] at this
  rw [← this]
  unfold item
  symm
  exact treeMap_id fun a ha => sub_nil (conf_leaves hc a ha).1

theorem cellAt_eq {b j : List Nat} {c : Cls α} {x : Tree α} (h : Conf b c x) (hj : InB b j) :
    cellAt x j = some (.record (item j x)) := by
  unfold cellAt
  rw [getitem_tuple h hj]; rfl

theorem mapM_some_map {β γ : Type} {f : β → Option γ} {g : β → γ} {l : List β} (h : ∀ a ∈ l, f a = some (g a)) :
    l.mapM f = some (l.map g) := by
  induction l with
  | nil => rfl
  | cons a l ih =>
    rw [List.mapM_cons, h a (by simp), ih fun b hb => h b (by simp [hb])]
    rfl

theorem mem_gridIndices {n k : Nat} (h : some k ∈ gridIndices n) : k < n := by
  unfold gridIndices at h
  by_cases hn : n > showSize * 2
  · rw [if_pos hn] at h
    have hn' : n > 2 * 2 := hn
    simp only [List.append_assoc, List.mem_append, List.mem_map, List.mem_range, Option.some.injEq, exists_eq_right, List.mem_singleton,
      reduceCtorEq, false_or] at h
    rcases h with h | ⟨a, ha, rfl⟩
    · have : k < 2 := h; omega
    · have h1 : a < 2 := ha
      show n - 2 + a < n
      omega
  · rw [if_neg hn] at h
    simpa using h

/-! ## The property -/

/-- Which of `n` positions are shown (`some k`), and where `...` stands (`none`): all of them if there are at most four, otherwise the
first two and the last two with one `...` between them. -/
def Shown (n : Nat) : List (Option Nat) :=
  if n ≤ 4 then (List.range n).map some else [some 0, some 1, none, some (n - 2), some (n - 1)]

/-- The positions shown are in range, strictly increasing (so no record twice), and `...` stands exactly if a position is left out. -/
theorem shown_spec (n : Nat) :
    (∀ k, some k ∈ Shown n → k < n) ∧ ((Shown n).filterMap id).Pairwise (· < ·) ∧
    (none ∈ Shown n ↔ ∃ k, k < n ∧ some k ∉ Shown n) ∧ ((Shown n).filter Option.isNone).length ≤ 1 := by
  unfold Shown
  by_cases h : n ≤ 4
  · rw [if_pos h]
    refine ⟨?_, ?_, ?_, ?_⟩
    · intro k hk; simpa using hk
    · have : ((List.range n).map some).filterMap id = List.range n := by
        rw [List.filterMap_map]
        exact List.filterMap_some
      rw [this]
      exact List.pairwise_lt_range
    · simp
    · have : ((List.range n).map some).filter Option.isNone = [] := by
        rw [List.filter_eq_nil_iff]; intro a ha; obtain ⟨k, _, rfl⟩ := List.mem_map.1 ha; simp
      rw [this]; simp
  · rw [if_neg h]
    refine ⟨?_, ?_, ?_, ?_⟩
    · intro k hk
      simp only [List.mem_cons, Option.some.injEq, reduceCtorEq, List.not_mem_nil, or_false, false_or] at hk
      omega
    · simp only [List.filterMap_cons, id, List.filterMap_nil, List.pairwise_cons, List.mem_cons, List.not_mem_nil, or_false,
        forall_eq_or_imp, forall_eq, List.Pairwise.nil, and_true]
      simp
      omega
    · refine ⟨fun _ => ⟨2, by omega, ?_⟩, fun _ => by simp⟩
      simp only [List.mem_cons, Option.some.injEq, reduceCtorEq, List.not_mem_nil, or_false, false_or]
      omega
    · simp

theorem gridIndices_eq (n : Nat) : gridIndices n = Shown n := by
  unfold gridIndices Shown showSize
  by_cases h : n ≤ 4
  · rw [if_pos h, if_neg (by omega)]
  · rw [if_neg h, if_pos (by omega)]
    have e : List.range 2 = [0, 1] := rfl
    rw [e]
    simp only [List.map_cons, List.map_nil, List.cons_append, List.nil_append, Nat.add_zero]
    rw [show n - 2 + 1 = n - 1 by omega]

/-- The cell for a shown position: the record there. -/
def cellOf (f : Nat → Tree α) : Option Nat → Cell α
  | none => .dots
  | some k => .record (f k)

/-- **C65 (1).**  `str(x)` of a batch of one axis, or of three or more, prints one line: the records in C order, all of them if there
are at most four, otherwise the first two, `...`, and the last two. -/
theorem str_line {b : List Nat} {c : Cls α} {x : Tree α} (hne : c ≠ .nil) (hc : c.HasFields) (h : Conf b c x) (hb : b.length ≠ 0)
    (hb2 : b.length ≠ 2) : str c x = some (.table [(Shown (size b)).map (cellOf fun k => item (unravel b k) x)] b) := by
  have hbs := batchShape_of_conf hne hc h
  unfold str
  rw [hbs]
  have hcell : ∀ k, k < size b → cellAt x (unravel b k) = some (.record (item (unravel b k) x)) := fun k hk =>
    cellAt_eq h (unravel_inB hk)
  have hline : lineCells x b = some ((Shown (size b)).map (cellOf fun k => item (unravel b k) x)) := by
    unfold lineCells Shown maxPrint showSize
    dsimp only
    by_cases hs : size b ≤ 4
    · rw [if_pos hs, if_pos hs, mapM_some_map (g := fun k => Cell.record (item (unravel b k) x))
        fun k hk => hcell k (List.mem_range.1 hk), List.map_map]
      rfl
    · rw [if_neg hs, if_neg hs, mapM_some_map (g := fun k => Cell.record (item (unravel b k) x))
        fun k hk => hcell k (by have := List.mem_range.1 hk; omega),
        mapM_some_map (g := fun k => Cell.record (item (unravel b (size b - 2 + k)) x))
        fun k hk => hcell _ (by have := List.mem_range.1 hk; omega)]
      have e : List.range 2 = [0, 1] := rfl
      rw [e]
      simp only [Option.bind_some, Option.map_some, List.map_cons, List.map_nil, List.cons_append, List.nil_append, Nat.add_zero, cellOf]
      rw [show size b - 2 + 1 = size b - 1 by omega]
  match b, hb, hb2, hline with
  | [], hb, _, _ => exact absurd rfl hb
  | [n], _, _, hline => simp only [Option.bind_some, hline, Option.map_some]
  | [n, m], _, hb2, _ => exact absurd rfl hb2
  | n :: m :: p :: b, _, _, hline => simp only [Option.bind_some, hline, Option.map_some]

/-- **C65 (2).**  `str(x)` of a two-axis batch prints a grid: record `(r, c)` in row `r` and column `c`; with more than four rows
(columns) only the first two and last two rows (columns), `...` in between. -/
theorem str_grid {n m : Nat} {c : Cls α} {x : Tree α} (hne : c ≠ .nil) (hc : c.HasFields) (h : Conf [n, m] c x) :
    str c x = some (.table ((Shown n).map fun
      | none => (Shown m).map fun _ => .dots
      | some r => (Shown m).map (cellOf fun k => item [r, k] x)) [n, m]) := by
  have hbs := batchShape_of_conf hne hc h
  unfold str
  rw [hbs]
  simp only [Option.bind_some]
  rw [mapM_some_map (g := fun
      | none => (Shown m).map fun _ => .dots
      | some r => (Shown m).map (cellOf fun k => item [r, k] x))]
  · rw [gridIndices_eq]; rfl
  · intro r hr
    cases r with
    | none => simp only [gridRow, gridIndices_eq]
    | some r =>
      have hrn := mem_gridIndices hr
      simp only [gridRow]
      rw [mapM_some_map (g := cellOf fun k => item [r, k] x), gridIndices_eq]
      intro k hk
      cases k with
      | none => rfl
      | some k => exact cellAt_eq h ⟨hrn, mem_gridIndices hk, trivial⟩

/-- **C65 (3).**  `str(x)` of a single record formats that record. -/
theorem str_single {c : Cls α} {x : Tree α} (hne : c ≠ .nil) (hc : c.HasFields) (h : Conf [] c x) : str c x = some (.single x) := by
  unfold str
  rw [batchShape_of_conf hne hc h]; rfl

/-- A 5-by-3 batch of one scalar field: the third row is elided, every column shown. -/
example :
    let c : Cls Nat := .leaf "v" [] (fun s => ofFn s fun _ => 0) .nil
    let x : Tree Nat := .leaf "v" ⟨[5, 3], List.range 15⟩ .nil
    Conf [5, 3] c x ∧ Shown 5 = [some 0, some 1, none, some 3, some 4] ∧ Shown 3 = [some 0, some 1, some 2] ∧
    item [3, 2] x = .leaf "v" ⟨[], [11]⟩ .nil := by
  refine ⟨?_, rfl, rfl, rfl⟩
  exact ⟨rfl, ⟨rfl, rfl⟩, trivial⟩

end SoA
