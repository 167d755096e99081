import Verif.HTConfig

/-!
# C104: what the masks returned by `parallel_insert` tell

`parallel_insert` returns `(table, inserted_mask, unique_mask, idxs)` (insert.py:383-552, docs/hashtable.md).
-/

namespace HashTable

open Jax SortGroup Dedupe DedupeSpec

variable {α : Type u} [DecidableEq α] {K : Type v} [KeyTop K] {H : Hasher α} {T : Table α}

/-- `ys` lists every item for which `P` holds once. -/
def Lists (ys : List α) (P : α → Prop) : Prop := ys.Nodup ∧ ∀ x, x ∈ ys ↔ P x

omit [DecidableEq α] in
theorem getD_of_some {l : List Bool} {i : Nat} (h : l[i]? = some true) : l.getD i false = true := by rw [List.getD_eq_getElem?_getD, h]; rfl

omit [DecidableEq α] in
theorem some_of_getD {l : List Bool} {i : Nat} (h : l.getD i false = true) : l[i]? = some true := by
  rw [List.getD_eq_getElem?_getD] at h
  cases he : l[i]? with
  | none => rw [he] at h; cases h
  | some b => rw [he] at h; exact congrArg some h

omit [DecidableEq α] in
/-- A mask without two marked lanes of one item marks as many lanes as there are marked items. -/
theorem mask_lists : ∀ (xs : List α) (m : List Bool), m.length = xs.length →
    (∀ (l l' : Nat) (x : α), m[l]? = some true → m[l']? = some true → xs[l]? = some x → xs[l']? = some x → l = l') →
    ∃ ys, Lists ys (fun x => ∃ l : Nat, xs[l]? = some x ∧ m[l]? = some true) ∧ m.countP id = ys.length
  | [], [], _, _ => ⟨[], ⟨List.nodup_nil, fun x => by simp⟩, rfl⟩
  | [], _ :: _, h, _ => by simp at h
  | _ :: _, [], h, _ => by simp at h
  | x :: xs, b :: m, hl, hd => by
    obtain ⟨ys, ⟨h1, h2⟩, h3⟩ := mask_lists xs m (by simpa using hl) fun l l' y a1 a2 a3 a4 => by
      have := hd (l + 1) (l' + 1) y (by simpa using a1) (by simpa using a2) (by simpa using a3) (by simpa using a4)
      omega
    cases b with
    | false =>
      refine ⟨ys, ⟨h1, fun y => ?_⟩, by simpa using h3⟩
      rw [h2]
      constructor
      · rintro ⟨l, a, b⟩; exact ⟨l + 1, by simpa using a, by simpa using b⟩
      · rintro ⟨l, a, b⟩
        cases l with
        | zero => simp at b
        | succ l => exact ⟨l, by simpa using a, by simpa using b⟩
    | true =>
      refine ⟨x :: ys, ⟨List.nodup_cons.2 ⟨fun hx => ?_, h1⟩, fun y => ?_⟩, by simp [h3]⟩
      · obtain ⟨l, a, b⟩ := (h2 x).1 hx
        have := hd 0 (l + 1) x rfl (by simpa using b) rfl (by simpa using a)
        omega
      · rw [List.mem_cons, h2]
        constructor
        · rintro (rfl | ⟨l, a, b⟩)
          · exact ⟨0, rfl, rfl⟩
          · exact ⟨l + 1, by simpa using a, by simpa using b⟩
        · rintro ⟨l, a, b⟩
          cases l with
          | zero => left; exact (Option.some.inj a).symm
          | succ l => right; exact ⟨l, by simpa using a, by simpa using b⟩

theorem unique_distinct (be : Backend) (mode : Mode) (xs : List α) (filled : List Bool) (key : Option (List K)) {l l' : Nat} {x : α}
    (h : (parallelInsert be mode H T xs filled key).unique[l]? = some true) (h' : (parallelInsert be mode H T xs filled key).unique[l']? = some true)
    (hx : xs[l]? = some x) (hx' : xs[l']? = some x) : l = l' :=
  (dedupe_sel mode H xs filled key).distinct l l' x (getD_of_some h) (getD_of_some h') hx hx'

/-- **C104 (1).**  On every reachable table, for every batch, mask, key, backend and mode, without exception: `inserted` is set exactly at the lanes that are `unique` and hold an
item that was not in the table before and is in it afterwards; no two `unique` lanes hold one item; `size` grows by the number of lanes `inserted`, which is the number of new
items. -/
theorem masks_inserted (hr : Reachable K H T) (be : Backend) (mode : Mode) (xs : List α) (filled : List Bool) (key : Option (List K)) :
    let r := parallelInsert be mode H T xs filled key
    r.inserted.length = xs.length ∧ r.unique.length = xs.length ∧
    (∀ (l : Nat) (x : α), xs[l]? = some x →
      (r.inserted[l]? = some true ↔ r.unique[l]? = some true ∧ (¬ ∃ i, Stored T x i) ∧ ∃ i, Stored r.table x i)) ∧
    (∀ (l l' : Nat) (x : α), r.unique[l]? = some true → r.unique[l']? = some true → xs[l]? = some x → xs[l']? = some x → l = l') ∧
    r.table.size = T.size + r.inserted.countP id ∧
    ∃ ys, Lists ys (fun x => (∃ i, Stored r.table x i) ∧ ¬ ∃ i, Stored T x i) ∧ r.inserted.countP id = ys.length := by
  intro r
  obtain ⟨h1, h2, h3⟩ := parallel_insert_union hr be mode xs filled key
  have hlen : r.inserted.length = xs.length := (pi_spec be hr.inv (dedupe_sel mode H xs filled key)).1.placed.len
  have hins : ∀ (l : Nat) (x : α), xs[l]? = some x →
      (r.inserted[l]? = some true ↔ r.unique[l]? = some true ∧ (¬ ∃ i, Stored T x i) ∧ ∃ i, Stored r.table x i) := by
    intro l x hx
    constructor
    · intro h
      exact ⟨(h2 l h).2.1, (h2 l h).2.2 x hx, (h1 x).2 (Or.inr ⟨l, h, hx⟩)⟩
    · rintro ⟨hu, hn, hs⟩
      rcases (h1 x).1 hs with h | ⟨k, hk, hkx⟩
      · exact absurd h hn
      · rw [unique_distinct be mode xs filled key hu (h2 k hk).2.1 hx hkx]
        exact hk
  refine ⟨hlen, dedupe_length _ _ _ _ _, hins, fun l l' x a b c d => unique_distinct be mode xs filled key a b c d,
    run_size hr.inv (.parallelInsert be mode xs filled key), ?_⟩
  obtain ⟨ys, ⟨a1, a2⟩, a3⟩ := mask_lists xs r.inserted hlen fun l l' x a b c d => h3 l l' a b (by rw [c, d])
  refine ⟨ys, ⟨a1, fun x => ?_⟩, a3⟩
  rw [a2]
  constructor
  · rintro ⟨l, hx, hl⟩
    exact ⟨((hins l x hx).1 hl).2.2, ((hins l x hx).1 hl).2.1⟩
  · rintro ⟨hs, hn⟩
    rcases (h1 x).1 hs with h | ⟨k, hk, hkx⟩
    · exact absurd h hn
    · exact ⟨k, hkx, hk⟩

/-- **C104 (2).**  `unique` is set exactly at the best filled lane of every item of the batch, whether or not the item was in the table before; so it is set at as many lanes as
there are different filled items. -/
theorem masks_unique_partial (be : Backend) {mode : Mode} (xs : List α) (filled : List Bool) (key : Option (List K)) (hg : GuardFor mode H.toEnc xs filled key) :
    let r := parallelInsert be mode H T xs filled key
    (∀ l : Nat, l < xs.length → (r.unique[l]? = some true ↔ filled[l]? = some true ∧ IsBest xs filled key l l)) ∧
    ∃ ys, Lists ys (fun x => ∃ l : Nat, xs[l]? = some x ∧ filled[l]? = some true) ∧ r.unique.countP id = ys.length := by
  intro r
  obtain ⟨hp, hsort⟩ := dedupe_default_sorted H.toEnc xs filled
  have hx : ∀ l : Nat, l < xs.length →
      (filled[l]? = some true → IsBest xs filled key l ((dedupe mode H.toEnc xs filled key).2.getD l 0)) ∧
      ((dedupe mode H.toEnc xs filled key).1[l]? = some true ↔ filled[l]? = some true ∧ IsBest xs filled key l l) :=
    fun l hl => dedupe_exact_partial H.toEnc xs filled key hg hp hsort l hl
  have huq : ∀ l : Nat, l < xs.length → (r.unique[l]? = some true ↔ filled[l]? = some true ∧ IsBest xs filled key l l) := fun l hl => (hx l hl).2
  refine ⟨huq, ?_⟩
  obtain ⟨ys, ⟨a1, a2⟩, a3⟩ := mask_lists xs r.unique (dedupe_length _ _ _ _ _) fun l l' x a b c d => unique_distinct be mode xs filled key a b c d
  refine ⟨ys, ⟨a1, fun x => ?_⟩, a3⟩
  rw [a2]
  constructor
  · rintro ⟨l, hx, hl⟩
    exact ⟨l, hx, ((huq l (List.getElem?_eq_some_iff.1 hx).1).1 hl).1⟩
  · rintro ⟨l, hxl, hf⟩
    have hl : l < xs.length := (List.getElem?_eq_some_iff.1 hxl).1
    obtain ⟨b1, b2, b3, b4⟩ := (hx l hl).1 hf
    have hj : xs[(dedupe mode H.toEnc xs filled key).2.getD l 0]? = some x := by rw [b3, hxl]
    refine ⟨_, hj, (huq _ b1).2 ⟨b2, b1, b2, rfl, fun k hk hfk hxk => b4 k hk hfk (by rw [hxk, b3])⟩⟩

/-- **C104 (negation).**  The documentation says of `unique_mask`: "true if the item was new and not a duplicate".  For every table and every item in it, inserting the item again
sets `unique` (and not `inserted`). -/
theorem unique_means_new_false (hr : Reachable K H T) (be : Backend) (mode : Mode) {x : α} {i : Nat} (hx : Stored T x i) :
    let r := parallelInsert be mode H T [x] [true] (none : Option (List K))
    r.unique = [true] ∧ r.inserted = [false] ∧ r.table.size = T.size := by
  intro r
  have hall : AllFilled [x] [true] := by
    intro l hl
    have : l = 0 := by simp at hl; exact hl
    subst this
    rfl
  have hnc : NoPairCollision H.toEnc [x] [true] := by
    intro l a ha _ k b hb _ _ _
    have : ∀ {l : Nat} {a : α}, [x][l]? = some a → a = x := by
      intro l a h
      cases l with
      | zero => exact (Option.some.inj h).symm
      | succ l => simp at h
    rw [this ha, this hb]
  have hg : Guard mode H.toEnc [x] [true] := by
    cases mode with
    | exact => exact Or.inl hall
    | safe => exact Or.inl hall
    | approx => exact ⟨hnc, Or.inl hall⟩
  obtain ⟨h1, h2, h3, _, h5, _⟩ := masks_inserted hr be mode [x] [true] (none : Option (List K))
  have hu : r.unique[0]? = some true := ((masks_unique_partial (T := T) be [x] [true] (none : Option (List K)) (hg.for _)).1 0 (by simp)).2
    ⟨rfl, by simp, rfl, rfl, fun k hk _ _ => ⟨KeyLE.refl _, fun _ => Nat.zero_le k⟩⟩
  have hi : r.inserted[0]? ≠ some true := fun h => ((h3 0 x rfl).1 h).2.1 ⟨i, hx⟩
  have e1 : r.unique = [true] := by
    obtain ⟨b, hb⟩ := List.length_eq_one_iff.1 h2
    have hb : r.unique = [b] := hb
    rw [hb] at hu ⊢
    cases hu
    rfl
  have e2 : r.inserted = [false] := by
    obtain ⟨b, hb⟩ := List.length_eq_one_iff.1 h1
    have hb : r.inserted = [b] := hb
    rw [hb] at hi ⊢
    cases b with
    | false => rfl
    | true => exact absurd rfl hi
  refine ⟨e1, e2, ?_⟩
  have h5 : r.table.size = T.size + r.inserted.countP id := h5
  rw [h5, e2]
  rfl

/-- Item 5 is stored; then 5, 7, 7, 6 (unfilled), 7 are given with keys 3, 2, 1, 0, 1: `unique` marks 5 (not new) and the best lane of 7, `inserted` only the latter. -/
example :
    let T := (parallelInsert (K := Option Nat) .xla .safe exHasher (build 0 8 2 2 none) [5] [true] none).table
    let r := parallelInsert .xla .safe exHasher T [5, 7, 7, 6, 7] [true, true, true, false, true] (some [some 3, some 2, some 1, some 0, some 1])
    Reachable (Option Nat) exHasher T ∧ Guard .safe exHasher.toEnc [5, 7, 7, 6, 7] [true, true, true, false, true] ∧
    r.unique = [true, false, true, false, false] ∧ r.inserted = [false, false, true, false, false] ∧ T.size = 1 ∧ r.table.size = 2 := by
  have h1 : PairsClean exHasher.toEnc [5, 7, 7, 6, 7] [true, true, true, false, true] := fun i x hx _ =>
    (by decide +kernel : ∀ x ∈ [5, 7, 7, 6, 7], ¬ (exHasher.toEnc.h1 x = sentinel ∧ exHasher.toEnc.h2 x = sentinel)) x (List.mem_of_getElem? hx)
  have h2 : NoPairCollision exHasher.toEnc [5, 7, 7, 6, 7] [true, true, true, false, true] := fun i x hx _ j y hy _ =>
    (by decide +kernel : ∀ x ∈ [5, 7, 7, 6, 7], ∀ y ∈ [5, 7, 7, 6, 7], exHasher.toEnc.h1 x = exHasher.toEnc.h1 y → exHasher.toEnc.h2 x = exHasher.toEnc.h2 y → x = y)
      x (List.mem_of_getElem? hx) y (List.mem_of_getElem? hy)
  refine ⟨⟨0, 8, 2, 2, none, [.parallelInsert .xla .safe [5] [true] none], ⟨by decide, by decide, by decide, fun m h => by cases h⟩, rfl⟩, Or.inr ⟨h1, Or.inl h2⟩, ?_⟩
  decide +kernel

end HashTable
