import Verif.BgpqOrder
import Verif.BgpqPad

/-!
# BGPQ and NaN keys (C81)

`jax.lax.sort` puts NaN after `+inf`, and `jnp.isfinite` of a NaN is false.  `NKey K` is a key dtype `K` with a NaN; its order is the order of
`jax.lax.sort`.  `bgpq_refines_nan` shows that a queue whose merges are done by sorting (`merge_sort_split_idx`, the backend on CPU and TPU) treats entries
with a NaN key like padding.  The comparisons outside of the sorts (`argmax` in _insert.py:98-100, `_cond` and `_body` in _delete.py:71-140) only see keys of
rows, and no row ever contains a NaN (`HRel.rows`), so that their results on NaN do not matter.

The merge kernels (GPU) compare with `a <= b`, which is false if one of them is NaN: `IKey K`.  There the merged array need not be sorted.
-/

/-- A key dtype with NaN, in the order of `jax.lax.sort`. -/
inductive NKey (K : Type u) where
  | num (k : K)
  | nan
  deriving DecidableEq

instance {K : Type u} [KeyInf K] : KeyLE (NKey K) where
  le a b := match a, b with
    | _, .nan => true
    | .nan, .num _ => false
    | .num x, .num y => KeyCmp.le x y
  trans := by
    intro a b c
    cases a <;> cases b <;> cases c <;> simp
    exact KeyLE.trans _ _ _
  total := by
    intro a b
    cases a <;> cases b <;> simp
    have := KeyLE.total (K := K)
    simpa using this _ _

instance {K : Type u} [KeyInf K] : KeyPad (NKey K) where
  inf := .num KeyPad.inf
  isFin
    | .num k => KeyPad.isFin k
    | .nan => false

namespace Jax

/-- Stable sorting when the elements with `P` come strictly before the others. -/
theorem mem_sortInsert {α : Type u} {le : α → α → Bool} {a x : α} {l : List α} (h : x ∈ sortInsert le a l) : x = a ∨ x ∈ l := by
  induction l with
  | nil => simpa [sortInsert] using h
  | cons b l ih =>
    unfold sortInsert at h
    by_cases hb : le a b = true
    · rw [if_pos hb] at h; simpa using h
    · rw [if_neg hb] at h
      rcases List.mem_cons.1 h with h | h
      · exact Or.inr (by simp [h])
      · rcases ih h with h | h
        · exact Or.inl h
        · exact Or.inr (by simp [h])

theorem mem_stableSort {α : Type u} {le : α → α → Bool} {x : α} {l : List α} (h : x ∈ stableSort le l) : x ∈ l := by
  induction l with
  | nil => exact h
  | cons a l ih =>
    rcases mem_sortInsert (show x ∈ sortInsert le a (stableSort le l) from h) with h | h
    · simp [h]
    · simp [ih h]

theorem length_sortInsert {α : Type u} (le : α → α → Bool) (a : α) (l : List α) : (sortInsert le a l).length = l.length + 1 := by
  induction l with
  | nil => rfl
  | cons b l ih =>
    unfold sortInsert
    by_cases hb : le a b = true
    · rw [if_pos hb]; rfl
    · rw [if_neg hb, List.length_cons, ih]; rfl

theorem length_stableSort {α : Type u} (le : α → α → Bool) (l : List α) : (stableSort le l).length = l.length := by
  induction l with
  | nil => rfl
  | cons a l ih =>
    show (sortInsert le a (stableSort le l)).length = _
    rw [length_sortInsert, ih]; rfl

theorem sortInsert_low {α : Type u} {le : α → α → Bool} {a : α} (A B : List α) (hB : ∀ b ∈ B, le a b = true) :
    sortInsert le a (A ++ B) = sortInsert le a A ++ B := by
  induction A with
  | nil =>
    cases B with
    | nil => rfl
    | cons b B => simp [sortInsert, hB b (by simp)]
  | cons x A ih =>
    simp only [List.cons_append, sortInsert]
    by_cases hx : le a x = true
    · rw [if_pos hx, if_pos hx]; rfl
    · rw [if_neg hx, if_neg hx, ih]; rfl

theorem sortInsert_high {α : Type u} {le : α → α → Bool} {a : α} (A B : List α) (hA : ∀ b ∈ A, le a b = false) :
    sortInsert le a (A ++ B) = A ++ sortInsert le a B := by
  induction A with
  | nil => rfl
  | cons x A ih =>
    simp only [List.cons_append, sortInsert, hA x (by simp)]
    rw [if_neg (by simp), ih fun b hb => hA b (by simp [hb])]

theorem stableSort_part {α : Type u} {le : α → α → Bool} (P : α → Bool) (h : ∀ a b, P a = true → P b = false → le a b = true ∧ le b a = false)
    (l : List α) : stableSort le l = stableSort le (l.filter P) ++ stableSort le (l.filter fun x => !P x) := by
  induction l with
  | nil => rfl
  | cons a l ih =>
    have e : ∀ m, stableSort le (a :: m) = sortInsert le a (stableSort le m) := fun _ => rfl
    rw [e, ih]
    cases ha : P a with
    | true =>
      simp only [List.filter_cons, ha, if_true, Bool.not_true, Bool.false_eq_true, if_false, e]
      refine sortInsert_low _ _ fun b hb => (h a b ha ?_).1
      simpa using (List.mem_filter.1 (mem_stableSort hb)).2
    | false =>
      simp only [List.filter_cons, ha, if_true, Bool.not_false, Bool.false_eq_true, if_false, e]
      refine sortInsert_high _ _ fun b hb => (h b a ?_ ha).2
      exact (List.mem_filter.1 (mem_stableSort hb)).2

theorem sortInsert_map {α : Type u} {β : Type v} {le : α → α → Bool} {le' : β → β → Bool} {f : α → β} (h : ∀ a b, le' (f a) (f b) = le a b) (a : α)
    (l : List α) : sortInsert le' (f a) (l.map f) = (sortInsert le a l).map f := by
  induction l with
  | nil => rfl
  | cons b l ih =>
    simp only [List.map_cons, sortInsert, h]
    by_cases hb : le a b = true
    · rw [if_pos hb, if_pos hb]; rfl
    · rw [if_neg hb, if_neg hb, ih]; rfl

theorem stableSort_map {α : Type u} {β : Type v} {le : α → α → Bool} {le' : β → β → Bool} {f : α → β} (h : ∀ a b, le' (f a) (f b) = le a b)
    (l : List α) : stableSort le' (l.map f) = (stableSort le l).map f := by
  induction l with
  | nil => rfl
  | cons a l ih =>
    show sortInsert le' (f a) (stableSort le' (l.map f)) = (sortInsert le a (stableSort le l)).map f
    rw [ih, sortInsert_map h]

end Jax

namespace Bgpq

open MergeModel BgpqSpec

namespace Pairwise2

variable {α : Type u} {β : Type v} {R : α → β → Prop}

theorem length {l : List α} {m : List β} (h : Pairwise2 R l m) : l.length = m.length := by
  induction h with
  | nil => rfl
  | cons _ _ ih => simp [ih]

theorem append {l l₂ : List α} {m m₂ : List β} (h : Pairwise2 R l m) (h₂ : Pairwise2 R l₂ m₂) : Pairwise2 R (l ++ l₂) (m ++ m₂) := by
  induction h with
  | nil => exact h₂
  | cons r _ ih => exact .cons r ih

theorem take {l : List α} {m : List β} (h : Pairwise2 R l m) (n : Nat) : Pairwise2 R (l.take n) (m.take n) := by
  induction h generalizing n with
  | nil => simp; exact .nil
  | cons r _ ih =>
    cases n with
    | zero => exact .nil
    | succ n => exact .cons r (ih n)

theorem drop {l : List α} {m : List β} (h : Pairwise2 R l m) (n : Nat) : Pairwise2 R (l.drop n) (m.drop n) := by
  induction h generalizing n with
  | nil => simp; exact .nil
  | cons r t ih =>
    cases n with
    | zero => exact .cons r t
    | succ n => exact ih n

theorem replicate {a : α} {b : β} (r : R a b) (n : Nat) : Pairwise2 R (List.replicate n a) (List.replicate n b) := by
  induction n with
  | zero => exact .nil
  | succ n ih => exact .cons r ih

theorem set {l : List α} {m : List β} (h : Pairwise2 R l m) (i : Nat) {a : α} {b : β} (r : R a b) : Pairwise2 R (l.set i a) (m.set i b) := by
  induction h generalizing i with
  | nil => exact .nil
  | cons r' t ih =>
    cases i with
    | zero => exact .cons r t
    | succ i => exact .cons r' (ih i)

theorem get {l : List α} {m : List β} (h : Pairwise2 R l m) (i : Nat) :
    (l[i]? = none ∧ m[i]? = none) ∨ ∃ a b, l[i]? = some a ∧ m[i]? = some b ∧ R a b := by
  induction h generalizing i with
  | nil => exact Or.inl ⟨rfl, rfl⟩
  | cons r t ih =>
    cases i with
    | zero => exact Or.inr ⟨_, _, rfl, rfl, r⟩
    | succ i => simpa using ih i

theorem map {γ : Type u'} {δ : Type v'} {S : γ → δ → Prop} {f : α → γ} {g : β → δ} {l : List α} {m : List β} (h : Pairwise2 R l m)
    (hf : ∀ a b, R a b → S (f a) (g b)) : Pairwise2 S (l.map f) (m.map g) := by
  induction h with
  | nil => exact .nil
  | cons r _ ih => exact .cons (hf _ _ r) ih

theorem of_map {γ : Type u'} {f : γ → α} {g : γ → β} (l : List γ) (hf : ∀ a ∈ l, R (f a) (g a)) : Pairwise2 R (l.map f) (l.map g) := by
  induction l with
  | nil => exact .nil
  | cons c l ih => exact .cons (hf c (by simp)) (ih fun a ha => hf a (by simp [ha]))

theorem of_all {l : List α} {m : List β} (hl : l.length = m.length) (h : ∀ a ∈ l, ∀ b ∈ m, R a b) : Pairwise2 R l m := by
  induction l generalizing m with
  | nil =>
    cases m with
    | nil => exact .nil
    | cons _ _ => simp at hl
  | cons a l ih =>
    cases m with
    | nil => simp at hl
    | cons b m => exact .cons (h a (by simp) b (by simp)) (ih (by simpa using hl) fun x hx y hy => h x (by simp [hx]) y (by simp [hy]))

end Pairwise2

variable {K : Type u} [KeyInf K] {V : Type v}

/-- An entry as an entry with a key that is no NaN. -/
def emb (p : K × V) : NKey K × V := (.num p.1, p.2)

/-- The same finite entry, or two paddings. -/
def PRel (p' : NKey K × V) (p : K × V) : Prop := (fin p = true ∧ p' = emb p) ∨ (fin p = false ∧ fin p' = false)

/-- The same finite entries at the same positions. -/
def LRel (l' : List (NKey K × V)) (l : List (K × V)) : Prop := Pairwise2 PRel l' l

/-- No NaN keys. -/
def NoNaN (l : List (NKey K × V)) : Prop := ∀ p ∈ l, p.1 ≠ .nan

/-- Rows of the two queues. -/
def RRel (r' : List (NKey K × V)) (r : List (K × V)) : Prop := LRel r' r ∧ NoNaN r'

/-- A queue that was given NaN keys, and one that was given padding instead. -/
structure HRel (h' : Heap (NKey K) V) (h : Heap K V) : Prop where
  branch : h'.branchSize = h.branchSize
  batch : h'.batchSize = h.batchSize
  heap : h'.heapSize = h.heapSize
  bufSize : h'.bufferSize = h.bufferSize
  rows : Pairwise2 RRel h'.rows h.rows
  buffer : LRel h'.buffer h.buffer

theorem fin_emb (p : K × V) : fin (emb p) = fin p := rfl

theorem PRel.fin_eq {p' : NKey K × V} {p : K × V} (h : PRel p' p) : fin p' = fin p := by
  rcases h with ⟨h, rfl⟩ | ⟨h, h'⟩
  · rfl
  · rw [h, h']

theorem LRel.nFinite {l' : List (NKey K × V)} {l : List (K × V)} (h : LRel l' l) : Bgpq.nFinite l' = Bgpq.nFinite l := by
  unfold Bgpq.nFinite
  unfold LRel at h
  induction h with
  | nil => rfl
  | cons r _ ih => rw [List.countP_cons, List.countP_cons, ih, r.fin_eq]

theorem LRel.items {l' : List (NKey K × V)} {l : List (K × V)} (h : LRel l' l) : l'.filter fin = (l.filter fin).map emb := by
  unfold LRel at h
  induction h with
  | nil => rfl
  | cons r _ ih =>
    rw [List.filter_cons, List.filter_cons, ih, r.fin_eq]
    rcases r with ⟨h, rfl⟩ | ⟨h, _⟩
    · rw [if_pos h, if_pos h]; rfl
    · rw [if_neg (by simp [h]), if_neg (by simp [h])]

theorem LRel.pads {l' : List (NKey K × V)} {l : List (K × V)} (h : LRel l' l) :
    (l'.filter fun p => !fin p).length = (l.filter fun p => !fin p).length := by
  unfold LRel at h
  induction h with
  | nil => rfl
  | cons r _ ih =>
    rw [List.filter_cons, List.filter_cons, r.fin_eq]
    rename_i p' p _ _ _
    cases fin p <;> simp [ih]

/-! ## Orders -/

theorem fin_before (a b : K × V) (ha : fin a = true) (hb : fin b = false) : keyLE a b = true ∧ keyLE b a = false := by
  have hb' := (fin_false_iff b).1 hb
  refine ⟨KeyLE.trans _ _ _ (KeyTop.le_inf a.1) hb', ?_⟩
  cases h : keyLE b a with
  | false => rfl
  | true =>
    have := (fin_false_iff a).2 (KeyLE.trans _ _ _ hb' h)
    rw [ha] at this
    cases this

theorem fin_before_nan (a b : NKey K × V) (ha : fin a = true) (hb : fin b = false) : keyLE a b = true ∧ keyLE b a = false := by
  obtain ⟨ka, va⟩ := a
  obtain ⟨kb, vb⟩ := b
  cases ka with
  | nan => cases ha
  | num x =>
    cases kb with
    | nan => exact ⟨rfl, rfl⟩
    | num y => exact fin_before (x, va) (y, vb) ha hb

def notNaN (p : NKey K × V) : Bool := match p.1 with
  | .nan => false
  | .num _ => true

omit [KeyInf K] in
theorem notNaN_iff (p : NKey K × V) : notNaN p = true ↔ p.1 ≠ .nan := by
  obtain ⟨k, v⟩ := p
  cases k <;> simp [notNaN]

theorem num_before_nan (a b : NKey K × V) (ha : notNaN a = true) (hb : notNaN b = false) : keyLE a b = true ∧ keyLE b a = false := by
  obtain ⟨ka, va⟩ := a
  obtain ⟨kb, vb⟩ := b
  cases ka with
  | nan => cases ha
  | num x =>
    cases kb with
    | nan => exact ⟨rfl, rfl⟩
    | num y => cases hb

theorem LRel.sort {l' : List (NKey K × V)} {l : List (K × V)} (h : LRel l' l) : LRel (sortKeyVal l') (sortKeyVal l) := by
  unfold sortKeyVal
  rw [Jax.stableSort_part fin fin_before_nan l', Jax.stableSort_part fin fin_before l, h.items,
    Jax.stableSort_map (le := keyLE) (f := emb) (fun _ _ => rfl)]
  refine Pairwise2.append ?_ (Pairwise2.of_all ?_ ?_)
  · have := Pairwise2.of_map (R := PRel (K := K) (V := V)) (f := emb) (g := id) (Jax.stableSort keyLE (l.filter fin))
      fun a ha => Or.inl ⟨(List.mem_filter.1 (Jax.mem_stableSort ha)).2, rfl⟩
    rwa [List.map_id] at this
  · rw [Jax.length_stableSort, Jax.length_stableSort, h.pads]
  · intro a ha b hb
    refine Or.inr ⟨?_, ?_⟩
    · simpa using (List.mem_filter.1 (Jax.mem_stableSort hb)).2
    · simpa using (List.mem_filter.1 (Jax.mem_stableSort ha)).2

/-- Sorting brings at least `n` entries that are no NaN to the front. -/
theorem noNaN_take {n : Nat} {l : List (NKey K × V)} (h : n ≤ (l.filter notNaN).length) : NoNaN ((sortKeyVal l).take n) := by
  unfold sortKeyVal
  rw [Jax.stableSort_part notNaN num_before_nan l, List.take_append_of_le_length (by rw [Jax.length_stableSort]; exact h)]
  intro p hp
  exact (notNaN_iff p).1 (List.mem_filter.1 (Jax.mem_stableSort (List.mem_of_mem_take hp))).2

theorem fin_take {n : Nat} {l : List (NKey K × V)} (h : n ≤ nFinite l) : ∀ p ∈ (sortKeyVal l).take n, fin p = true := by
  unfold sortKeyVal
  rw [nFinite, List.countP_eq_length_filter] at h
  rw [Jax.stableSort_part fin fin_before_nan l, List.take_append_of_le_length (by rw [Jax.length_stableSort]; exact h)]
  intro p hp
  exact (List.mem_filter.1 (Jax.mem_stableSort (List.mem_of_mem_take hp))).2

theorem noNaN_of_fin {l : List (NKey K × V)} (h : ∀ p ∈ l, fin p = true) : NoNaN l := by
  intro p hp e
  have := h p hp
  obtain ⟨k, v⟩ := p
  cases e
  cases this

theorem noNaN_filter {l : List (NKey K × V)} (h : NoNaN l) : l.filter notNaN = l :=
  List.filter_eq_self.2 fun p hp => (notNaN_iff p).2 (h p hp)

/-! ## The operations -/

theorem LRel.split {a' b' : List (NKey K × V)} {a b : List (K × V)} (ha : LRel a' a) (hb : LRel b' b) :
    LRel (mergeSplit a' b').1 (mergeSplit a b).1 ∧ LRel (mergeSplit a' b').2 (mergeSplit a b).2 := by
  have hs : LRel (sortKeyVal (a' ++ b')) (sortKeyVal (a ++ b)) := LRel.sort (Pairwise2.append ha hb)
  have hl := Pairwise2.length ha
  unfold mergeSplit
  rw [hl]
  exact ⟨Pairwise2.take hs _, Pairwise2.drop hs _⟩

theorem noNaN_first {a' b' : List (NKey K × V)} (ha : NoNaN a') : NoNaN (mergeSplit a' b').1 := by
  unfold mergeSplit
  refine noNaN_take ?_
  rw [List.filter_append, noNaN_filter ha, List.length_append]
  omega

theorem noNaN_second {a' b' : List (NKey K × V)} (ha : NoNaN a') (hb : NoNaN b') : NoNaN (mergeSplit a' b').2 := by
  unfold mergeSplit
  intro p hp
  rcases List.mem_append.1 (Jax.mem_stableSort (List.mem_of_mem_drop hp)) with h | h
  · exact ha p h
  · exact hb p h

theorem RRel.split {a' b' : List (NKey K × V)} {a b : List (K × V)} (ha : RRel a' a) (hb : RRel b' b) :
    RRel (mergeSplit a' b').1 (mergeSplit a b).1 ∧ RRel (mergeSplit a' b').2 (mergeSplit a b).2 :=
  ⟨⟨(ha.1.split hb.1).1, noNaN_first ha.2⟩, ⟨(ha.1.split hb.1).2, noNaN_second ha.2 hb.2⟩⟩

theorem rRel_nil : RRel ([] : List (NKey K × V)) [] := ⟨.nil, fun _ h => (by cases h)⟩

theorem rowAt_rel {rows' : List (List (NKey K × V))} {rows : List (List (K × V))} (h : Pairwise2 RRel rows' rows) (i : Nat) :
    RRel (rowAt rows' i) (rowAt rows i) := by
  unfold rowAt Jax.gatherU
  rw [h.length]
  rcases h.get (Jax.clampIdx rows.length i) with ⟨e, e'⟩ | ⟨a, b, e, e', r⟩
  · rw [e, e']; exact rRel_nil
  · rw [e, e']; exact r

/-- Keys of rows. -/
def CRel (k' : NKey K) (k : K) : Prop := ∃ j, k' = .num j ∧ (KeyPad.isFin k = true → j = k) ∧ (KeyPad.isFin k = false → KeyPad.isFin j = false)

theorem CRel.le {k' l' : NKey K} {k l : K} (h : CRel k' k) (h' : CRel l' l) : KeyCmp.le k' l' = KeyCmp.le k l := by
  obtain ⟨j, rfl, h1, h2⟩ := h
  obtain ⟨j', rfl, h1', h2'⟩ := h'
  show KeyCmp.le j j' = KeyCmp.le k l
  cases hk : KeyPad.isFin k with
  | true =>
    rw [h1 hk]
    cases hl : KeyPad.isFin l with
    | true => rw [h1' hl]
    | false =>
      have e1 : KeyCmp.le k j' = true := (fin_before (k, ()) (j', ()) hk (h2' hl)).1
      have e2 : KeyCmp.le k l = true := (fin_before (k, ()) (l, ()) hk hl).1
      rw [e1, e2]
  | false =>
    cases hl : KeyPad.isFin l with
    | true =>
      rw [h1' hl]
      have e1 : KeyCmp.le j l = false := (fin_before (l, ()) (j, ()) hl (h2 hk)).2
      have e2 : KeyCmp.le k l = false := (fin_before (l, ()) (k, ()) hl hk).2
      rw [e1, e2]
    | false =>
      have top : ∀ a b : K, KeyPad.isFin b = false → KeyCmp.le a b = true := fun a b hb =>
        KeyLE.trans _ _ _ (KeyTop.le_inf a) ((fin_false_iff (b, ())).1 hb)
      rw [top j j' (h2' hl), top k l hl]

theorem cRel_inf : CRel (KeyPad.inf : NKey K) (KeyPad.inf : K) := ⟨_, rfl, fun _ => rfl, fun h => h⟩

theorem cRel_of {p' : NKey K × V} {p : K × V} (h : PRel p' p) (hn : p'.1 ≠ .nan) : CRel p'.1 p.1 := by
  obtain ⟨k', v'⟩ := p'
  cases k' with
  | nan => exact absurd rfl hn
  | num j =>
    refine ⟨j, rfl, fun hf => ?_, fun hf => ?_⟩
    · rcases h with ⟨_, e⟩ | ⟨e, _⟩
      · cases e; rfl
      · rw [show fin p = KeyPad.isFin p.1 from rfl, hf] at e; cases e
    · have := h.fin_eq
      rw [show fin p = KeyPad.isFin p.1 from rfl, hf] at this
      exact this

theorem RRel.first {r' : List (NKey K × V)} {r : List (K × V)} (h : RRel r' r) : CRel (firstKey r') (firstKey r) := by
  obtain ⟨h, hn⟩ := h
  unfold LRel at h
  cases h with
  | nil => exact cRel_inf
  | cons r t => exact cRel_of r (hn _ (by simp))

theorem RRel.last {r' : List (NKey K × V)} {r : List (K × V)} (h : RRel r' r) : CRel (lastKey r') (lastKey r) := by
  obtain ⟨h, hn⟩ := h
  unfold LRel at h
  unfold lastKey
  rw [List.getLast?_eq_getElem?, List.getLast?_eq_getElem?, h.length]
  rcases h.get (r.length - 1) with ⟨e, e'⟩ | ⟨a, b, e, e', q⟩
  · rw [e, e']; exact cRel_inf
  · rw [e, e']; exact cRel_of q (hn _ (List.mem_of_getElem? e))

theorem argmaxAux_rel {ks' : List (NKey K)} {ks : List K} (h : Pairwise2 CRel ks' ks) {b' : NKey K} {b : K} (hb : CRel b' b) (best i : Nat) :
    argmaxAux best b' i ks' = argmaxAux best b i ks := by
  induction h generalizing b' b best i with
  | nil => rfl
  | @cons k' k _ _ r _ ih =>
    unfold argmaxAux
    rw [r.le hb]
    by_cases hc : KeyCmp.le k b = true
    · rw [if_pos hc, if_pos hc]; exact ih hb _ _
    · rw [if_neg hc, if_neg hc]; exact ih r _ _

theorem argmaxLast_rel {rows' : List (List (NKey K × V))} {rows : List (List (K × V))} (h : Pairwise2 RRel rows' rows) :
    argmaxLast rows' = argmaxLast rows := by
  unfold argmaxLast
  have hm : Pairwise2 CRel (rows'.map lastKey) (rows.map lastKey) := h.map fun _ _ r => r.last
  generalize rows'.map lastKey = l' at hm
  generalize rows.map lastKey = l at hm
  cases hm with
  | nil => rfl
  | cons r t => exact argmaxAux_rel t r 0 1

/-- Row updates. -/
def URel (u' : Nat × List (NKey K × V)) (u : Nat × List (K × V)) : Prop := u'.1 = u.1 ∧ RRel u'.2 u.2

theorem scatter_rel {us' : List (Nat × List (NKey K × V))} {us : List (Nat × List (K × V))} (hu : Pairwise2 URel us' us)
    {rows' : List (List (NKey K × V))} {rows : List (List (K × V))} (h : Pairwise2 RRel rows' rows) :
    Pairwise2 RRel (scatterRows rows' us') (scatterRows rows us) := by
  unfold scatterRows
  induction hu generalizing rows' rows with
  | nil => exact h
  | @cons u' u _ _ r _ ih =>
    rw [List.foldl_cons, List.foldl_cons]
    apply ih
    rw [r.1, h.length]
    by_cases hc : u.1 < rows.length
    · rw [if_pos hc, if_pos hc]; exact h.set _ r.2
    · rw [if_neg hc, if_neg hc]; exact h

theorem scan_rel {ns' : List (List (NKey K × V) × Bool)} {ns : List (List (K × V) × Bool)}
    (h : Pairwise2 (fun a b => RRel a.1 b.1 ∧ a.2 = b.2) ns' ns) {c' : List (NKey K × V)} {c : List (K × V)} (hc : RRel c' c) :
    Pairwise2 RRel (scanPath ns' c').1 (scanPath ns c).1 := by
  induction h generalizing c' c with
  | nil => exact .nil
  | @cons a b l m r _ ih =>
    obtain ⟨a1, a2⟩ := a
    obtain ⟨b1, b2⟩ := b
    obtain ⟨r1, r2⟩ := r
    simp only at r1 r2
    subst r2
    unfold scanPath
    by_cases hd : a2 = true
    · rw [if_pos hd, if_pos hd]
      exact .cons (r1.split hc).1 (ih (r1.split hc).2)
    · rw [if_neg hd, if_neg hd]
      exact .cons r1 (ih hc)

theorem zip_rel {is : List Nat} {l' : List (List (NKey K × V))} {l : List (List (K × V))} (h : Pairwise2 RRel l' l) :
    Pairwise2 URel (is.zip l') (is.zip l) := by
  induction h generalizing is with
  | nil => rw [List.zip_nil_right, List.zip_nil_right]; exact .nil
  | cons r _ ih =>
    cases is with
    | nil => exact .nil
    | cons i is => exact .cons ⟨rfl, r⟩ ih

theorem insertUpdates_rel {h' : Heap (NKey K) V} {h : Heap K V} (hr : HRel h' h) (target : Nat) {b' : List (NKey K × V)} {b : List (K × V)}
    (hb : RRel b' b) : Pairwise2 URel (insertUpdates h' target b') (insertUpdates h target b) := by
  unfold insertUpdates
  simp only [hr.branch]
  refine zip_rel (scan_rel (Pairwise2.of_map _ fun a _ => ?_) hb)
  exact ⟨rowAt_rel hr.rows _, rfl⟩

theorem mergeBuffer_rel {h' : Heap (NKey K) V} {h : Heap K V} (hr : HRel h' h) {b' : List (NKey K × V)} {b : List (K × V)} (hb : LRel b' b) :
    HRel (mergeBuffer h' b').1 (mergeBuffer h b).1 ∧ (mergeBuffer h' b').2.2 = (mergeBuffer h b).2.2 ∧
      ((mergeBuffer h b).2.2 = true → RRel (mergeBuffer h' b').2.1 (mergeBuffer h b).2.1) := by
  have hs : LRel (sortKeyVal (b' ++ h'.buffer)) (sortKeyVal (b ++ h.buffer)) := LRel.sort (Pairwise2.append hb hr.buffer)
  unfold mergeBuffer
  simp only [hr.batch, hs.nFinite]
  by_cases ho : nFinite (sortKeyVal (b ++ h.buffer)) ≥ h.batchSize
  · have hd := Pairwise2.drop hs h.batchSize
    simp only [ho, decide_true, if_true]
    refine ⟨⟨hr.branch, rfl, hr.heap, LRel.nFinite hd, hr.rows, hd⟩, trivial, fun _ => ⟨Pairwise2.take hs _, noNaN_of_fin (fin_take ?_)⟩⟩
    have e : nFinite (b' ++ h'.buffer) = nFinite (sortKeyVal (b' ++ h'.buffer)) := by
      unfold nFinite
      exact ((sortKeyVal_perm (b' ++ h'.buffer)).countP_eq fin).symm
    rw [e, hs.nFinite]
    exact ho
  · have hd := Pairwise2.take hs ((sortKeyVal (b ++ h.buffer)).length - h.batchSize)
    simp only [ho, decide_false, Bool.false_eq_true, if_false, Pairwise2.length hs]
    exact ⟨⟨hr.branch, rfl, hr.heap, LRel.nFinite hd, hr.rows, hd⟩, trivial, fun h => h.elim⟩

theorem insertHeapify_rel {h' : Heap (NKey K) V} {h : Heap K V} (hr : HRel h' h) {b' : List (NKey K × V)} {b : List (K × V)} (hb : RRel b' b) :
    HRel (insertHeapify h' b').1 (insertHeapify h b).1 ∧ (insertHeapify h' b').2 = (insertHeapify h b).2 := by
  unfold insertHeapify
  simp only [hr.branch, hr.heap, argmaxLast_rel hr.rows]
  generalize (if decide (h.heapSize ≥ h.branchSize - 1) = true then argmaxLast h.rows else h.heapSize + 1) = last
  refine ⟨?_, trivial⟩
  by_cases hv : last < h.branchSize
  · simp only [hv, decide_true, if_true]
    by_cases h0 : last = 0
    · rw [if_pos h0, if_pos h0]
      exact ⟨rfl, hr.batch, rfl, hr.bufSize, hr.rows.set 0 ((rowAt_rel hr.rows 0).split hb).1, hr.buffer⟩
    · rw [if_neg h0, if_neg h0]
      exact ⟨rfl, hr.batch, rfl, hr.bufSize, scatter_rel (insertUpdates_rel hr last hb) hr.rows, hr.buffer⟩
  · simp only [hv, decide_false, Bool.false_eq_true, if_false]
    exact hr

theorem insert_rel {h' : Heap (NKey K) V} {h : Heap K V} (hr : HRel h' h) {b' : List (NKey K × V)} {b : List (K × V)} (hb : LRel b' b) :
    HRel (insert h' b') (insert h b) := by
  have hs : LRel (sortKeyVal b') (sortKeyVal b) := hb.sort
  have h0 := rowAt_rel hr.rows 0
  have sp := h0.1.split hs
  have hr1 : HRel { h' with rows := h'.rows.set 0 (mergeSplit (rowAt h'.rows 0) (sortKeyVal b')).1 }
      { h with rows := h.rows.set 0 (mergeSplit (rowAt h.rows 0) (sortKeyVal b)).1 } :=
    ⟨hr.branch, hr.batch, hr.heap, hr.bufSize, hr.rows.set 0 ⟨sp.1, noNaN_first h0.2⟩, hr.buffer⟩
  obtain ⟨m1, m2, m3⟩ := mergeBuffer_rel hr1 sp.2
  unfold insert
  simp only
  revert m1 m2 m3
  generalize mergeBuffer _ (mergeSplit (rowAt h'.rows 0) (sortKeyVal b')).2 = x'
  generalize mergeBuffer _ (mergeSplit (rowAt h.rows 0) (sortKeyVal b)).2 = x
  obtain ⟨g', blk', o'⟩ := x'
  obtain ⟨g, blk, o⟩ := x
  simp only
  intro m1 m2 m3
  subst m2
  cases o' with
  | false =>
    simp only [Bool.false_eq_true, if_false]
    exact ⟨m1.branch, m1.batch, by simp [m1.heap], m1.bufSize, m1.rows, m1.buffer⟩
  | true =>
    simp only [if_true]
    obtain ⟨n1, n2⟩ := insertHeapify_rel m1 (m3 rfl)
    rw [n2]
    exact ⟨n1.branch, n1.batch, by simp [n1.heap], n1.bufSize, n1.rows, n1.buffer⟩

/-- Results of the sift-down loop. -/
def SRel (x' : Nat × List (NKey K × V) × List (Nat × List (NKey K × V))) (x : Nat × List (K × V) × List (Nat × List (K × V))) : Prop :=
  x'.1 = x.1 ∧ RRel x'.2.1 x.2.1 ∧ Pairwise2 URel x'.2.2 x.2.2

/-- Both exceptions, or related results. -/
def ORel {α : Type u'} {β : Type v'} (R : α → β → Prop) : Option α → Option β → Prop
  | none, none => True
  | some a, some b => R a b
  | _, _ => False

theorem sift_rel {rows' : List (List (NKey K × V))} {rows : List (List (K × V))} (h : Pairwise2 RRel rows' rows) (fuel cur : Nat)
    {k' : List (NKey K × V)} {k : List (K × V)} (hk : RRel k' k) {u' : List (Nat × List (NKey K × V))} {u : List (Nat × List (K × V))}
    (hu : Pairwise2 URel u' u) : ORel SRel (siftLoop rows' fuel cur k' u') (siftLoop rows fuel cur k u) := by
  induction fuel generalizing cur k' k u' u with
  | zero => exact trivial
  | succ fuel ih =>
    have hl := rowAt_rel h (cur * 2 + 1)
    have hrr := rowAt_rel h (cur * 2 + 2)
    unfold siftLoop
    simp only
    have hm : CRel (if KeyCmp.le (firstKey (rowAt rows' (cur * 2 + 1))) (firstKey (rowAt rows' (cur * 2 + 2))) = true
          then firstKey (rowAt rows' (cur * 2 + 1)) else firstKey (rowAt rows' (cur * 2 + 2)))
        (if KeyCmp.le (firstKey (rowAt rows (cur * 2 + 1))) (firstKey (rowAt rows (cur * 2 + 2))) = true
          then firstKey (rowAt rows (cur * 2 + 1)) else firstKey (rowAt rows (cur * 2 + 2))) := by
      rw [hl.first.le hrr.first]
      by_cases hc : KeyCmp.le (firstKey (rowAt rows (cur * 2 + 1))) (firstKey (rowAt rows (cur * 2 + 2))) = true
      · rw [if_pos hc, if_pos hc]; exact hl.first
      · rw [if_neg hc, if_neg hc]; exact hrr.first
    rw [hk.last.le hm]
    by_cases hc : KeyCmp.le (lastKey k) (if KeyCmp.le (firstKey (rowAt rows (cur * 2 + 1))) (firstKey (rowAt rows (cur * 2 + 2))) = true
          then firstKey (rowAt rows (cur * 2 + 1)) else firstKey (rowAt rows (cur * 2 + 2))) = true
    · rw [if_pos hc, if_pos hc]
      exact ⟨rfl, hk, hu⟩
    · rw [if_neg hc, if_neg hc, hl.last.le hrr.last]
      have s1 := hl.split hrr
      have s2 := hk.split s1.1
      by_cases hx : KeyCmp.le (lastKey (rowAt rows (cur * 2 + 1))) (lastKey (rowAt rows (cur * 2 + 2))) = true
      · simp only [hx, if_true]
        exact ih _ s2.2 (hu.append (.cons ⟨rfl, s2.1⟩ (.cons ⟨rfl, s1.2⟩ .nil)))
      · simp only [hx]
        exact ih _ s2.2 (hu.append (.cons ⟨rfl, s2.1⟩ (.cons ⟨rfl, s1.2⟩ .nil)))

theorem deleteUpdates_rel {rows' : List (List (NKey K × V))} {rows : List (List (K × V))} (h : Pairwise2 RRel rows' rows) (branch : Nat)
    {k' : List (NKey K × V)} {k : List (K × V)} (hk : RRel k' k) :
    ORel (Pairwise2 URel) (deleteUpdates branch rows' k') (deleteUpdates branch rows k) := by
  unfold deleteUpdates
  have := sift_rel h (maxDepth branch) 0 hk .nil
  revert this
  cases siftLoop rows' (maxDepth branch) 0 k' [] with
  | none =>
    cases siftLoop rows (maxDepth branch) 0 k [] with
    | none => intro h; exact h
    | some x => intro h; exact h.elim
  | some x' =>
    cases siftLoop rows (maxDepth branch) 0 k [] with
    | none => intro h; exact h.elim
    | some x =>
      obtain ⟨c', k1', u'⟩ := x'
      obtain ⟨c, k1, u⟩ := x
      rintro ⟨h1, h2, h3⟩
      simp only at h1 h2 h3
      exact (h3.append (.cons ⟨h1, h2⟩ .nil)).take _

theorem padded_rel {r' : List (NKey K × V)} {r : List (K × V)} (h : RRel r' r) :
    RRel (r'.map fun p => ((KeyPad.inf : NKey K), p.2)) (r.map fun p => ((KeyPad.inf : K), p.2)) := by
  refine ⟨h.1.map fun a b _ => Or.inr ⟨?_, ?_⟩, fun p hp => ?_⟩
  · exact (fin_false_iff _).2 (KeyLE.refl _)
  · exact (fin_false_iff ((KeyPad.inf : K), a.2)).2 (KeyLE.refl _)
  · obtain ⟨q, _, rfl⟩ := List.mem_map.1 hp
    intro e
    cases e

theorem deleteMins_rel {h' : Heap (NKey K) V} {h : Heap K V} (hr : HRel h' h) :
    ORel (fun x' x => HRel x'.1 x.1 ∧ RRel x'.2 x.2) (deleteMins h') (deleteMins h) := by
  have h0 := rowAt_rel hr.rows 0
  unfold deleteMins
  rw [hr.heap]
  by_cases hz : h.heapSize = 0
  · rw [if_pos hz, if_pos hz]
    have sp := (padded_rel h0).1.split hr.buffer
    exact ⟨⟨hr.branch, hr.batch, rfl, rfl, hr.rows.set 0 ⟨sp.1, noNaN_first (padded_rel h0).2⟩, sp.2⟩, h0⟩
  · rw [if_neg hz, if_neg hz]
    have hl := rowAt_rel hr.rows h.heapSize
    have sp := hl.1.split hr.buffer
    have hroot : RRel (mergeSplit (rowAt h'.rows h.heapSize) h'.buffer).1 (mergeSplit (rowAt h.rows h.heapSize) h.buffer).1 :=
      ⟨sp.1, noNaN_first hl.2⟩
    have hrows := (hr.rows.set h.heapSize (padded_rel hl)).set 0 hroot
    have hu := deleteUpdates_rel hrows h.branchSize hroot
    unfold deleteHeapify
    simp only [hr.heap, hr.branch]
    revert hu
    generalize deleteUpdates h.branchSize _ (mergeSplit (rowAt h'.rows h.heapSize) h'.buffer).1 = x'
    generalize deleteUpdates h.branchSize _ (mergeSplit (rowAt h.rows h.heapSize) h.buffer).1 = x
    intro hu
    cases x' with
    | none =>
      cases x with
      | none => exact trivial
      | some x => exact hu.elim
    | some x' =>
      cases x with
      | none => exact hu.elim
      | some x => exact ⟨⟨rfl, hr.batch, rfl, hr.bufSize, scatter_rel hu hrows, sp.2⟩, h0⟩

theorem build_rel (total batch : Nat) (dflt : V) : HRel (build total batch dflt : Heap (NKey K) V) (build total batch dflt) := by
  have hp : PRel ((KeyPad.inf, dflt) : NKey K × V) ((KeyPad.inf, dflt) : K × V) :=
    Or.inr ⟨(fin_false_iff _).2 (KeyLE.refl _), (fin_false_iff ((KeyPad.inf : K), dflt)).2 (KeyLE.refl _)⟩
  refine ⟨rfl, rfl, rfl, rfl, Pairwise2.replicate ⟨Pairwise2.replicate hp _, fun p hq => ?_⟩ _, Pairwise2.replicate hp _⟩
  rw [List.eq_of_mem_replicate hq]
  intro e
  cases e

theorem size_rel {h' : Heap (NKey K) V} {h : Heap K V} (hr : HRel h' h) : h'.size = h.size := by
  unfold Heap.size
  rw [hr.heap, hr.batch, hr.bufSize, (rowAt_rel hr.rows 0).1.nFinite]

/-! ## Histories -/

/-- Replace NaN keys by the padding key. -/
def erase (p : NKey K × V) : K × V := match p.1 with
  | .num k => (k, p.2)
  | .nan => (KeyPad.inf, p.2)

theorem erase_rel (l : List (NKey K × V)) : LRel l (l.map erase) := by
  have := Pairwise2.of_map (R := PRel (K := K) (V := V)) (f := id) (g := erase) l fun p _ => ?_
  · rwa [List.map_id] at this
  · obtain ⟨k, v⟩ := p
    cases k with
    | nan => exact Or.inr ⟨(fin_false_iff _).2 (KeyLE.refl _), rfl⟩
    | num k =>
      cases hf : fin (k, v) with
      | true => exact Or.inl ⟨hf, rfl⟩
      | false => exact Or.inr ⟨hf, hf⟩

def eraseOp : Op (NKey K) V → Op K V
  | .insert b => .insert (b.map erase)
  | .deleteMins => .deleteMins

theorem le_emb (x y : K × V) : KeyCmp.le (emb x).1 (emb y).1 = KeyCmp.le x.1 y.1 := rfl

theorem RRel.le {r' : List (NKey K × V)} {r : List (K × V)} (h : RRel r' r) {y : K × V} (hy : ∀ x ∈ r, KeyCmp.le x.1 y.1 = true) :
    ∀ x ∈ r', KeyCmp.le x.1 (emb y).1 = true := by
  intro x hx
  obtain ⟨i, hi⟩ := List.mem_iff_getElem?.1 hx
  rcases Pairwise2.get h.1 i with ⟨e, _⟩ | ⟨a, b, e, e', q⟩
  · rw [hi] at e; cases e
  · rw [hi] at e
    cases e
    have hc : CRel (emb y).1 y.1 := ⟨y.1, rfl, fun _ => rfl, fun h => h⟩
    rw [(cRel_of q (h.2 x hx)).le hc]
    exact hy b (List.mem_of_getElem? e')

theorem RRel.sorted {r' : List (NKey K × V)} {r : List (K × V)} (h : RRel r' r) (hs : SortedKeys r) : SortedKeys r' := by
  obtain ⟨h1, h2⟩ := h
  unfold SortedKeys at *
  unfold LRel at h1
  induction h1 with
  | nil => exact .nil
  | @cons a b l m q t ih =>
    rw [List.pairwise_cons] at hs ⊢
    refine ⟨fun x hx => ?_, ih hs.2 fun p hp => h2 p (by simp [hp])⟩
    obtain ⟨i, hi⟩ := List.mem_iff_getElem?.1 hx
    rcases t.get i with ⟨e, _⟩ | ⟨c, d, e, e', q'⟩
    · rw [hi] at e; cases e
    · rw [hi] at e
      cases e
      rw [(cRel_of q (h2 a (by simp))).le (cRel_of q' (h2 x (by simp [hx])))]
      exact hs.1 d (List.mem_of_getElem? e')

/-- Outputs of the two queues. -/
def OutRel (o' : Out (NKey K) V) (o : Out K V) : Prop := o'.size = o.size ∧ ORel RRel o'.ret o.ret

theorem step_rel {n cap : Nat} {S S₁ : List (K × V)} {op : Op (NKey K) V} {o' : Out (NKey K) V} {o : Out K V} (ho : OutRel o' o)
    (h : Step n cap S (eraseOp op) o S₁) : Step n cap (S.map emb) op o' (S₁.map emb) := by
  obtain ⟨hsz, hret⟩ := ho
  obtain ⟨h1, h2⟩ := h
  refine ⟨by rw [hsz, h1, List.length_map], ?_⟩
  cases op with
  | insert b =>
    obtain ⟨e, d, d1, d2, d3, d4, d5⟩ := h2
    have hi : items b = (items (b.map erase)).map emb := (erase_rel b).items
    refine ⟨?_, d.map emb, ?_, ?_, ?_, ?_, ?_⟩
    · revert hret
      rw [e]
      cases o'.ret with
      | none => intro _; rfl
      | some x => intro h; exact h.elim
    · rw [hi, ← List.map_append, ← List.map_append]
      exact d1.map emb
    · rw [hi, List.length_map, List.length_map]
      intro hlt
      rw [d2 hlt]
      rfl
    · rw [List.length_map]; exact d3
    · intro hne
      obtain ⟨best, rest, b1, b2, b3, b4⟩ := d4 fun e => hne (by rw [e]; rfl)
      refine ⟨best.map emb, rest.map emb, by rw [← List.map_append]; exact b1.map emb, by rw [List.length_map]; exact b2, ?_, ?_⟩
      · intro x hx y hy
        obtain ⟨x0, hx0, rfl⟩ := List.mem_map.1 hx
        obtain ⟨y0, hy0, rfl⟩ := List.mem_map.1 hy
        exact b3 x0 hx0 y0 hy0
      · intro x hx y hy
        obtain ⟨x0, hx0, rfl⟩ := List.mem_map.1 hx
        obtain ⟨y0, hy0, rfl⟩ := List.mem_map.1 hy
        exact b4 x0 hx0 y0 hy0
    · intro hne
      obtain ⟨z, hz, hc⟩ := d5 fun e => hne (by rw [e]; rfl)
      refine ⟨emb z, List.mem_map.2 ⟨z, hz, rfl⟩, ?_⟩
      rw [List.countP_map]
      exact hc
  | deleteMins =>
    obtain ⟨r, e, r1, r2, r3, r4, r5⟩ := h2
    rw [e] at hret
    cases hr : o'.ret with
    | none => rw [hr] at hret; exact hret.elim
    | some r' =>
      rw [hr] at hret
      have hret : RRel r' r := hret
      have hi : items r' = (items r).map emb := hret.1.items
      refine ⟨r', rfl, (Pairwise2.length hret.1).trans r1, hret.sorted r2, ?_, ?_, ?_⟩
      · rw [hi, ← List.map_append]; exact r3.map emb
      · intro x hx y hy
        obtain ⟨y0, hy0, rfl⟩ := List.mem_map.1 hy
        exact hret.le (fun x hx => r4 x hx y0 hy0) x hx
      · rw [hi, List.length_map]
        intro hlt
        rw [r5 hlt]
        rfl

theorem run_rel (ops : List (Op (NKey K) V)) {h' : Heap (NKey K) V} {h : Heap K V} (hr : HRel h' h) :
    ORel (fun x' x => HRel x'.1 x.1 ∧ Pairwise2 OutRel x'.2 x.2) (run h' ops) (run h (ops.map eraseOp)) := by
  induction ops generalizing h' h with
  | nil => exact ⟨hr, .nil⟩
  | cons op ops ih =>
    cases op with
    | insert b =>
      have hi := insert_rel hr (erase_rel b)
      have hrun := ih hi
      simp only [run, List.map_cons, eraseOp, step, Option.bind_some]
      revert hrun
      cases run (insert h' b) ops with
      | none =>
        cases run (insert h (b.map erase)) (ops.map eraseOp) with
        | none => intro h; exact h
        | some x => intro h; exact h.elim
      | some x' =>
        cases run (insert h (b.map erase)) (ops.map eraseOp) with
        | none => intro h; exact h.elim
        | some x => rintro ⟨q1, q2⟩; exact ⟨q1, .cons ⟨size_rel hi, trivial⟩ q2⟩
    | deleteMins =>
      have hd := deleteMins_rel hr
      simp only [run, List.map_cons, eraseOp, step]
      revert hd
      cases deleteMins h' with
      | none =>
        cases deleteMins h with
        | none => intro h; exact h
        | some x => intro h; exact h.elim
      | some y' =>
        cases deleteMins h with
        | none => intro h; exact h.elim
        | some y =>
          obtain ⟨g', r'⟩ := y'
          obtain ⟨g, r⟩ := y
          rintro ⟨d1, d2⟩
          simp only at d1 d2
          have hrun := ih d1
          simp only [Option.map_some, Option.bind_some]
          revert hrun
          cases run g' ops with
          | none =>
            cases run g (ops.map eraseOp) with
            | none => intro h; exact h
            | some x => intro h; exact h.elim
          | some x' =>
            cases run g (ops.map eraseOp) with
            | none => intro h; exact h.elim
            | some x => rintro ⟨q1, q2⟩; exact ⟨q1, .cons ⟨size_rel d1, d2⟩ q2⟩

theorem trace_rel {n cap : Nat} {ops : List (Op (NKey K) V)} {outs' : List (Out (NKey K) V)} {outs : List (Out K V)} (ho : Pairwise2 OutRel outs' outs)
    {S S₁ : List (K × V)} (h : Trace n cap S (ops.map eraseOp) outs S₁) : Trace n cap (S.map emb) ops outs' (S₁.map emb) := by
  induction ops generalizing outs' outs S with
  | nil =>
    cases h
    cases ho
    exact .nil _
  | cons op ops ih =>
    cases h with
    | cons hs ht =>
      cases ho with
      | cons q t => exact .cons (step_rel q hs) (ih t ht)

/-- **C81.**  A queue whose merges are done by sorting, given blocks in which any keys are NaN: every history completes and is a history of the
priority-queue specification `BgpqSpec.Trace`, in which entries with a NaN key are no items (like padding: `isfinite` is false): they are not counted, do not take
room, and do not disturb the order.  `delete_mins` never returns a NaN key. -/
theorem bgpq_refines_nan (total batch : Nat) (ht : 0 < total) (hb : 0 < batch) (dflt : V)
    (hcap : (build total batch dflt : Heap (NKey K) V).maxSize + batch ≤ 2 ^ 32)
    (ops : List (Op (NKey K) V)) (hw : ∀ op ∈ ops, WellFormed batch op) :
    ∃ h outs S, run (build total batch dflt : Heap (NKey K) V) ops = some (h, outs) ∧
      Trace batch (build total batch dflt : Heap (NKey K) V).maxSize [] ops outs S ∧ h.size = S.length ∧
      ∀ o ∈ outs, ∀ r, o.ret = some r → NoNaN r := by
  obtain ⟨h, outs, S, r1, r2, r3⟩ := bgpq_refines (K := K) total batch ht hb dflt hcap (ops.map eraseOp) (by
    intro op hop
    obtain ⟨o, ho, rfl⟩ := List.mem_map.1 hop
    have := hw o ho
    cases o with
    | insert b => exact (List.length_map _).trans this
    | deleteMins => exact trivial)
  have hrel := run_rel ops (build_rel (K := K) total batch dflt)
  rw [r1] at hrel
  cases hx : run (build total batch dflt : Heap (NKey K) V) ops with
  | none => rw [hx] at hrel; exact hrel.elim
  | some x =>
    rw [hx] at hrel
    obtain ⟨q1, q2⟩ := hrel
    refine ⟨x.1, x.2, S.map emb, rfl, trace_rel q2 r2, ?_, ?_⟩
    · rw [size_rel q1, r3, List.length_map]
    · intro o ho r hret
      obtain ⟨i, hi⟩ := List.mem_iff_getElem?.1 ho
      rcases q2.get i with ⟨e, _⟩ | ⟨a, b, e, _, q⟩
      · rw [hi] at e; cases e
      · rw [hi] at e
        cases e
        have := q.2
        rw [hret] at this
        revert this
        cases b.ret with
        | none => intro h; exact h.elim
        | some rb => intro h; exact h.2

/-- A history that fills the buffer with a NaN (batches of 2): the NaNs are never seen again. -/
example :
    let k : Nat → NKey (Option Nat) := fun n => .num (some n)
    (run (build 20 2 0 : Heap (NKey (Option Nat)) Nat)
      [.insert [(k 5, 1), (.nan, 9)], .insert [(.nan, 9), (k 4, 2)], .insert [(.nan, 9), (k 7, 3)], .insert [(k 6, 4), (.nan, 9)], .deleteMins, .deleteMins]).map
      (fun x => x.2.map fun o => (o.size, o.ret.map fun r => r.map Prod.fst)) =
    some [(1, none), (2, none), (3, none), (4, none), (2, some [k 4, k 5]), (0, some [k 6, k 7])] := by
  decide +kernel

/-! ## Merge kernels -/

/-- A key dtype with NaN and the comparison `a <= b` of the array operators. -/
structure IKey (K : Type u) where
  key : NKey K
  deriving DecidableEq

instance {K : Type u} [KeyCmp K] : KeyCmp (IKey K) where
  le a b := match a.key, b.key with
    | .num x, .num y => KeyCmp.le x y
    | _, _ => false

/-- **C81 is false for the merge kernels** (the loop and the parallel kernel, used on GPU): from a buffer with a NaN they emit the NaN first, so that smaller keys of the other array
come after it; sorting keeps the NaN at the end. -/
theorem nan_kernel_false :
    let n : Nat → IKey (Option Nat) := fun x => ⟨.num (some x)⟩
    let m : Nat → NKey (Option Nat) := fun x => .num (some x)
    (mergeLoop [n 2, n 3] [⟨.nan⟩]).map Prod.fst = [⟨.nan⟩, n 2, n 3] ∧
    (mergeParallel (n 0) ⟨.num none⟩ 4 [n 2, n 3] [⟨.nan⟩]).map Prod.fst = [⟨.nan⟩, n 2, n 3] ∧
    (mergeSortSplitIdx [m 2, m 3] [.nan]).map Prod.fst = [m 2, m 3, .nan] := by
  refine ⟨?_, ?_, ?_⟩
  · simp [mergeLoop, loopMain, loopA, loopB, KeyCmp.le]
  · have hp : binarySearchPartition (⟨.num (some 0)⟩ : IKey (Option Nat)) ⟨.num none⟩ 0 [⟨.num (some 2)⟩, ⟨.num (some 3)⟩] [⟨.nan⟩] = (0, 0) := by
      unfold binarySearchPartition
      simp only
      unfold partLoop
      rfl
    unfold mergeParallel
    simp only [List.length_cons, List.length_nil, List.range, List.range.loop, List.flatMap_cons, List.flatMap_nil, Nat.zero_mul, hp]
    decide +kernel
  · decide +kernel

end Bgpq
