import Verif.HTKernels
import Verif.HTRoom
import Mathlib.Data.List.Perm.Subperm

/-!
# Hash table contents do not depend on order, batching or back-end (C62)

Specification vocabulary:
* `Offers op x`  — the operation offers `x`: it is the item of a single insert, or the item of a filled lane of a batch;
* `AllOffered ops x` — some operation of the history offers `x`;
* `contains T x` — `lookup` finds `x`.
-/

namespace HashTable

open Jax SortGroup Dedupe DedupeSpec

variable {α : Type u} [DecidableEq α] {K : Type v} [KeyTop K] {H : Hasher α} {T : Table α}

/-- The operation offers `x` to the table. -/
def Offers : Op α K → α → Prop
  | .insert y, x => y = x
  | .parallelInsert _ _ xs filled _, x => ∃ l : Nat, xs[l]? = some x ∧ filled[l]? = some true

/-- Some operation of the history offers `x`. -/
def AllOffered (ops : List (Op α K)) (x : α) : Prop := ∃ op ∈ ops, Offers op x

/-- De-duplication of the batch is exact (C23): every lane filled, finite keys or no filled lane that encodes to the sentinel, and no collision of hash pairs in mode
`approx`.  Nothing is asked of single inserts. -/
def Exact (H : Hasher α) : Op α K → Prop
  | .insert _ => True
  | .parallelInsert _ mode xs filled key => GuardFor mode H.toEnc xs filled key

/-- The back-end finds a free slot whenever there is one (C22): always for single inserts and for the kernels with default
probe limit and buckets of at most 32 slots; for the XLA path when `max_probes` is large enough for the batch. -/
def Thorough (H : Hasher α) (T : Table α) : Op α K → Prop
  | .insert _ => True
  | .parallelInsert .xla _ xs _ _ => xs.length * (T.cap * (T.bs + 1)) ≤ T.maxProbes
  | .parallelInsert be _ _ _ _ => be.Complete T

/-- Nothing but offered items is ever added. -/
theorem run_stored_offered (hr : Reachable K H T) (op : Op α K) (x : α) (h : ∃ i, Stored (run H T op) x i) :
    (∃ i, Stored T x i) ∨ Offers op x := by
  cases op with
  | insert y =>
    by_cases hs : ∃ i, Stored T y i
    · obtain ⟨i, hi⟩ := hs
      have e := (insert_reports hr y).1 i hi
      simp only [run, e] at h
      exact Or.inl h
    · by_cases hf : ∃ i, i < T.cap * T.bs ∧ ¬ Occupied T i
      · obtain ⟨i, hi⟩ := h
        rcases (((insert_reports hr y).2.1 hs hf).2.2.2 x i).1 hi with h | ⟨rfl, _⟩
        · exact Or.inl ⟨i, h⟩
        · exact Or.inr rfl
      · have hfull : ∀ i, i < T.cap * T.bs → Occupied T i := fun i hi =>
          Classical.byContradiction fun hc => hf ⟨i, hi, hc⟩
        have e := ((insert_reports hr y).2.2 hs hfull).1
        simp only [run, e] at h
        exact Or.inl h
  | parallelInsert be mode xs filled key =>
    obtain ⟨h1, h2, _⟩ := parallel_insert_union hr be mode xs filled key
    rcases (h1 x).1 h with h | ⟨l, hl, hx⟩
    · exact Or.inl h
    · exact Or.inr ⟨l, hx, (h2 l hl).1⟩

/-- Stored items stay stored. -/
theorem run_keeps (hr : Reachable K H T) (op : Op α K) {x : α} (h : ∃ i, Stored T x i) :
    ∃ i, Stored (run H T op) x i := by
  obtain ⟨i, hi⟩ := h
  exact ⟨i, exec_stored hr.inv [op] hi⟩

/-- The occupied slots, in order. -/
def occSlots (T : Table α) : List Nat := (List.range (T.cap * T.bs)).filter fun i => decide (Occupied T i)

/-- The stored items, by slot. -/
def storedItems (T : Table α) : List α := (occSlots T).filterMap (getitem T)

theorem mem_storedItems {x : α} : x ∈ storedItems T ↔ ∃ i, Stored T x i := by
  unfold storedItems occSlots
  rw [List.mem_filterMap]
  constructor
  · rintro ⟨i, hi, hg⟩
    exact ⟨i, of_decide_eq_true (List.mem_filter.1 hi).2, hg⟩
  · rintro ⟨i, ho, hg⟩
    exact ⟨i, List.mem_filter.2 ⟨List.mem_range.2 ho.1, decide_eq_true ho⟩, hg⟩

theorem filterMap_total {γ : Type w} {δ : Type z} (f : γ → Option δ) (L : List γ) (h : ∀ a ∈ L, ∃ b, f a = some b) :
    (L.filterMap f).length = L.length := by
  induction L with
  | nil => rfl
  | cons a L ih =>
    obtain ⟨b, hb⟩ := h a (by simp)
    rw [List.filterMap_cons_some hb, List.length_cons, List.length_cons, ih (fun c hc => h c (by simp [hc]))]

theorem filterMap_nodup {γ : Type w} {δ : Type z} (f : γ → Option δ) (L : List γ) (hn : L.Nodup)
    (h : ∀ a ∈ L, ∀ b ∈ L, ∀ y, f a = some y → f b = some y → a = b) : (L.filterMap f).Nodup := by
  induction L with
  | nil => simp
  | cons a L ih =>
    obtain ⟨hna, hn'⟩ := List.nodup_cons.1 hn
    have ih' := ih hn' (fun c hc d hd => h c (by simp [hc]) d (by simp [hd]))
    cases hf : f a with
    | none => rw [List.filterMap_cons_none hf]; exact ih'
    | some y =>
      rw [List.filterMap_cons_some hf, List.nodup_cons]
      refine ⟨?_, ih'⟩
      intro hm
      obtain ⟨b, hb, hy⟩ := List.mem_filterMap.1 hm
      have := h a (by simp) b (by simp [hb]) y hf hy
      subst this
      exact hna hb

theorem storedItems_length (hr : Reachable K H T) : (storedItems T).length = T.size := by
  rw [← occupiedCount_eq hr.inv]
  unfold storedItems
  rw [filterMap_total]
  · rfl
  · intro i hi
    obtain ⟨x, hx⟩ := occupied_stored hr.inv (of_decide_eq_true (List.mem_filter.1 hi).2)
    exact ⟨x, hx.2⟩

theorem storedItems_nodup (hr : Reachable K H T) : (storedItems T).Nodup := by
  unfold storedItems occSlots
  refine filterMap_nodup _ _ (List.nodup_range.filter _) ?_
  intro a ha b hb y h1 h2
  exact stored_unique hr.inv ⟨of_decide_eq_true (List.mem_filter.1 ha).2, h1⟩ ⟨of_decide_eq_true (List.mem_filter.1 hb).2, h2⟩

/-- A list of distinct items, none of them stored, that together with the stored items lies in `U` leaves room. -/
theorem room_of_bound (hr : Reachable K H T) (U : List α) (news : List α) (hn : news.Nodup)
    (hnew : ∀ x ∈ news, x ∈ U ∧ ¬ ∃ i, Stored T x i) (hst : ∀ x, (∃ i, Stored T x i) → x ∈ U) :
    news.length + T.size ≤ U.length := by
  rw [← storedItems_length hr, ← List.length_append]
  apply List.Subperm.length_le
  apply List.subperm_of_subset
  · rw [List.nodup_append]
    refine ⟨hn, storedItems_nodup hr, ?_⟩
    rintro a ha b hb rfl
    exact (hnew a ha).2 (mem_storedItems.1 hb)
  · intro x hx
    rcases List.mem_append.1 hx with h | h
    · exact (hnew x h).1
    · exact hst x (mem_storedItems.1 h)

/-- The distinct new items of a batch fit, if stored and offered items together are at most as many as the slots. -/
theorem newLanes_room (hr : Reachable K H T) (U : List α) (hU : U.length ≤ T.cap * T.bs)
    (hst : ∀ x, (∃ i, Stored T x i) → x ∈ U) (mode : Mode) (xs : List α) (filled : List Bool) (key : Option (List K))
    (hoff : ∀ (l : Nat) (x : α), xs[l]? = some x → filled[l]? = some true → x ∈ U) :
    (newLanes H T xs (dedupe mode H.toEnc xs filled key).1).length + T.size ≤ T.cap * T.bs := by
  have hsel := dedupe_sel mode H xs filled key
  have hmem : ∀ l ∈ newLanes H T xs (dedupe mode H.toEnc xs filled key).1, ∃ x, xs[l]? = some x ∧
      (dedupe mode H.toEnc xs filled key).1.getD l false = true ∧ (lookup H T x).2 = false := by
    intro l hl
    unfold newLanes at hl
    obtain ⟨h1, h2⟩ := List.mem_filter.1 hl
    have hlt := List.mem_range.1 h1
    refine ⟨xs[l], List.getElem?_eq_getElem hlt, ?_⟩
    rw [List.getElem?_eq_getElem hlt] at h2
    simpa using h2
  have hlen : ((newLanes H T xs (dedupe mode H.toEnc xs filled key).1).filterMap fun l => xs[l]?).length =
      (newLanes H T xs (dedupe mode H.toEnc xs filled key).1).length :=
    filterMap_total _ _ fun l hl => by obtain ⟨x, hx, _⟩ := hmem l hl; exact ⟨x, hx⟩
  rw [← hlen]
  refine Nat.le_trans (room_of_bound hr U _ ?_ ?_ hst) hU
  · refine filterMap_nodup _ _ (by unfold newLanes; exact List.nodup_range.filter _) ?_
    intro a ha b hb y h1 h2
    obtain ⟨_, _, da, _⟩ := hmem a ha
    obtain ⟨_, _, db, _⟩ := hmem b hb
    exact hsel.distinct a b y da db h1 h2
  · intro x hx
    obtain ⟨l, hl, hxl⟩ := List.mem_filterMap.1 hx
    obtain ⟨y, hy, hd, hf⟩ := hmem l hl
    rw [hxl] at hy; cases hy
    refine ⟨hoff l x hxl (filled_iff.1 (hsel.filled l (List.getElem?_eq_some_iff.1 hxl).1 hd)), ?_⟩
    intro hs
    rw [(lookup_found_iff hr.inv x).1.2 hs] at hf; cases hf

/-- With room for everything in `U`, an exact and thorough operation stores everything it offers. -/
theorem run_stores_offered (hr : Reachable K H T) (U : List α) (hU : U.length ≤ T.cap * T.bs)
    (hst : ∀ x, (∃ i, Stored T x i) → x ∈ U) (op : Op α K) (hoff : ∀ x, Offers op x → x ∈ U) (he : Exact H op)
    (ht : Thorough H T op) (x : α) (hx : Offers op x) : ∃ i, Stored (run H T op) x i := by
  cases op with
  | insert y =>
    have : y = x := hx
    subst this
    by_cases hs : ∃ i, Stored T y i
    · exact run_keeps hr _ hs
    · have hroom := room_of_bound hr U [y] (by simp) (by
        intro z hz
        have : z = y := by simpa using hz
        subst this
        exact ⟨hoff z rfl, hs⟩) hst
      have hfree : ∃ i, i < T.cap * T.bs ∧ ¬ Occupied T i := by
        apply Classical.byContradiction
        intro hc
        have hall : occupiedCount T = T.cap * T.bs := by
          unfold occupiedCount
          rw [List.filter_eq_self.2, List.length_range]
          intro i hi
          exact decide_eq_true (Classical.byContradiction fun h => hc ⟨i, List.mem_range.1 hi, h⟩)
        rw [occupiedCount_eq hr.inv] at hall
        simp only [List.length_singleton] at hroom
        omega
      exact ⟨_, ((insert_reports hr y).2.1 hs hfree).2.2.1⟩
  | parallelInsert be mode xs filled key =>
    obtain ⟨l, hxl, hfl⟩ := hx
    have hg : GuardFor mode H.toEnc xs filled key := he
    have hlt := (List.getElem?_eq_some_iff.1 hxl).1
    obtain ⟨hp, hsort⟩ := dedupe_default_sorted H.toEnc xs filled
    have hbest : IsBest xs filled key l ((dedupe mode H.toEnc xs filled key).2.getD l 0) :=
      (dedupe_exact_partial H.toEnc xs filled key hg hp hsort l hlt).1 hfl
    generalize (dedupe mode H.toEnc xs filled key).2.getD l 0 = r at hbest
    obtain ⟨hrl, hrf, hrx, hmin⟩ := hbest
    have hrr : IsBest xs filled key r r := ⟨hrl, hrf, rfl, fun k hk hfk hxk => hmin k hk hfk (by rw [hxk, hrx])⟩
    have hd : (dedupe mode H.toEnc xs filled key).1[r]? = some true :=
      (dedupe_exact_partial H.toEnc xs filled key hg hp hsort r hrl).2.2 ⟨hrf, hrr⟩
    have hroom := newLanes_room hr U hU hst mode xs filled key fun l x h1 h2 => hoff x ⟨l, h1, h2⟩
    have hxr : xs[r]? = some x := by rw [hrx, hxl]
    cases be with
    | xla =>
      refine parallel_insert_places_all_partial hr mode xs filled key hroom ?_ r x hxr hd
      refine Nat.le_trans (Nat.mul_le_mul_right _ ?_) ht
      show (newLanes H T xs (dedupe mode H.toEnc xs filled key).1).length ≤ xs.length
      unfold newLanes
      exact Nat.le_trans (List.length_filter_le _ _) (by simp)
    | triton mpb sched => exact kernel_insert_places_all (be := .triton mpb sched) hr ht mode xs filled key hroom r x hxr hd
    | pallas mpb => exact kernel_insert_places_all (be := .pallas mpb) hr ht mode xs filled key hroom r x hxr hd

theorem run_shape (hr : Reachable K H T) (op : Op α K) :
    (run H T op).cap = T.cap ∧ (run H T op).bs = T.bs ∧ (run H T op).maxProbes = T.maxProbes := by
  obtain ⟨N, he⟩ := run_ext hr.inv op
  exact ⟨he.cap_eq, he.bs_eq, he.mp_eq⟩

theorem Thorough.congr {T' : Table α} (h1 : T'.cap = T.cap) (h2 : T'.bs = T.bs) (h3 : T'.maxProbes = T.maxProbes)
    {op : Op α K} (h : Thorough H T op) : Thorough H T' op := by
  cases op with
  | insert x => trivial
  | parallelInsert be mode xs filled key =>
    cases be <;> simp only [Thorough, Backend.Complete, h1, h2, h3] at h ⊢ <;> exact h

theorem exec_contents (hr : Reachable K H T) (U : List α) (hU : U.length ≤ T.cap * T.bs)
    (hst : ∀ x, (∃ i, Stored T x i) → x ∈ U) (ops : List (Op α K)) (hoff : ∀ x, AllOffered ops x → x ∈ U)
    (he : ∀ op ∈ ops, Exact H op) (ht : ∀ op ∈ ops, Thorough H T op) (x : α) :
    (∃ i, Stored (exec H T ops) x i) ↔ (∃ i, Stored T x i) ∨ AllOffered ops x := by
  induction ops generalizing T with
  | nil => exact ⟨fun h => Or.inl h, fun h => h.elim id (by rintro ⟨_, h, _⟩; cases h)⟩
  | cons op ops ih =>
    obtain ⟨s1, s2, s3⟩ := run_shape hr op
    have hst' : ∀ x, (∃ i, Stored (run H T op) x i) → x ∈ U := by
      intro y hy
      rcases run_stored_offered hr op y hy with h | h
      · exact hst y h
      · exact hoff y ⟨op, by simp, h⟩
    have := ih (hr.run op) (by rw [s1, s2]; exact hU) hst' (fun y hy => hoff y (by
      obtain ⟨o, ho, hy⟩ := hy; exact ⟨o, by simp [ho], hy⟩)) (fun o ho => he o (by simp [ho]))
      (fun o ho => (ht o (by simp [ho])).congr s1 s2 s3)
    show (∃ i, Stored (exec H (run H T op) ops) x i) ↔ _
    rw [this]
    constructor
    · rintro (h | ⟨o, ho, hx⟩)
      · rcases run_stored_offered hr op x h with h | h
        · exact Or.inl h
        · exact Or.inr ⟨op, by simp, h⟩
      · exact Or.inr ⟨o, by simp [ho], hx⟩
    · rintro (h | ⟨o, ho, hx⟩)
      · exact Or.inl (run_keeps hr op h)
      · rcases List.mem_cons.1 ho with rfl | ho
        · exact Or.inl (run_stores_offered hr U hU hst o (fun y hy => hoff y ⟨o, by simp, hy⟩) (he o (by simp)) (ht o (by simp)) x hx)
        · exact Or.inr ⟨o, ho, hx⟩

theorem build_no_stored (d : α) {capacity bs mult : Nat} {mp : Option Nat} (x : α) :
    ¬ ∃ i, Stored (build d capacity bs mult mp) x i := by
  rintro ⟨i, ⟨h1, h2⟩, _⟩
  simp only [build, List.getD_eq_getElem?_getD] at h2
  rw [List.getElem?_replicate] at h2
  split at h2 <;> simp at h2

/-- **C62 (1).**  Build a table, run any history of single inserts and batches on any mixture of modes and back-ends.  If
the items offered lie in a list `U` no longer than the number of slots, then `lookup` finds exactly the items offered,
and `size` is their number (the length of any duplicate-free list of them). -/
theorem contents_are_offered (d : α) {capacity bs mult : Nat} {mp : Option Nat} (hv : ValidParams capacity bs mult mp)
    (ops : List (Op α K)) (U : List α) (hU : U.length ≤ internalCap capacity bs mult * bs)
    (hoff : ∀ x, AllOffered ops x → x ∈ U) (he : ∀ op ∈ ops, Exact H op)
    (ht : ∀ op ∈ ops, Thorough H (build d capacity bs mult mp) op) :
    (∀ x, (lookup H (exec H (build d capacity bs mult mp) ops) x).2 = true ↔ AllOffered ops x) ∧
    ∀ D : List α, D.Nodup → (∀ x, x ∈ D ↔ AllOffered ops x) →
      (exec H (build d capacity bs mult mp) ops).size = D.length := by
  have hr0 : Reachable K H (build d capacity bs mult mp) := ⟨d, capacity, bs, mult, mp, [], hv, rfl⟩
  have hr : Reachable K H (exec H (build d capacity bs mult mp) ops) := ⟨d, capacity, bs, mult, mp, ops, hv, rfl⟩
  have key : ∀ x, (∃ i, Stored (exec H (build d capacity bs mult mp) ops) x i) ↔ AllOffered ops x := by
    intro x
    rw [exec_contents hr0 U hU (fun y hy => absurd hy (build_no_stored d y)) ops hoff he ht]
    exact ⟨fun h => h.elim (fun h => absurd h (build_no_stored d x)) id, Or.inr⟩
  refine ⟨fun x => ((lookup_exact hr x).1).trans (key x), ?_⟩
  intro D hD hDx
  rw [← storedItems_length hr]
  have h1 : ∀ x, x ∈ storedItems (exec H (build d capacity bs mult mp) ops) ↔ x ∈ D := by
    intro x; rw [mem_storedItems, key, hDx]
  apply Nat.le_antisymm
  · exact (List.subperm_of_subset (storedItems_nodup hr) fun x hx => (h1 x).1 hx).length_le
  · exact (List.subperm_of_subset hD fun x hx => (h1 x).2 hx).length_le

/-- **C62 (2).**  Two histories that offer the same items, in whatever order, batching, masks, unique keys, modes,
back-ends and schedules, on tables of whatever sizes, end with tables in which the same items are found and of equal
size. -/
theorem histories_confluent (d d' : α) {capacity bs mult capacity' bs' mult' : Nat} {mp mp' : Option Nat}
    {H' : Hasher α} (hv : ValidParams capacity bs mult mp) (hv' : ValidParams capacity' bs' mult' mp')
    (ops ops' : List (Op α K)) (hsame : ∀ x, AllOffered ops x ↔ AllOffered ops' x)
    (U : List α) (hoff : ∀ x, AllOffered ops x → x ∈ U)
    (hU : U.length ≤ internalCap capacity bs mult * bs) (hU' : U.length ≤ internalCap capacity' bs' mult' * bs')
    (he : ∀ op ∈ ops, Exact H op) (ht : ∀ op ∈ ops, Thorough H (build d capacity bs mult mp) op)
    (he' : ∀ op ∈ ops', Exact H' op) (ht' : ∀ op ∈ ops', Thorough H' (build d' capacity' bs' mult' mp') op) :
    (∀ x, (lookup H (exec H (build d capacity bs mult mp) ops) x).2 =
      (lookup H' (exec H' (build d' capacity' bs' mult' mp') ops') x).2) ∧
    (exec H (build d capacity bs mult mp) ops).size = (exec H' (build d' capacity' bs' mult' mp') ops').size := by
  obtain ⟨h1, h2⟩ := contents_are_offered (H := H) d hv ops U hU hoff he ht
  obtain ⟨h1', h2'⟩ := contents_are_offered (H := H') d' hv' ops' U hU' (fun x hx => hoff x ((hsame x).2 hx)) he' ht'
  refine ⟨fun x => Bool.eq_iff_iff.2 ((h1 x).trans ((hsame x).trans (h1' x).symm)), ?_⟩
  have hr : Reachable K H (exec H (build d capacity bs mult mp) ops) := ⟨d, capacity, bs, mult, mp, ops, hv, rfl⟩
  rw [← storedItems_length hr]
  symm
  apply h2' _ (storedItems_nodup hr)
  intro x
  rw [mem_storedItems, ← (lookup_exact hr x).1, h1, hsame]

/-- **C62 (3).**  In particular the order of the operations does not matter. -/
theorem order_irrelevant (d : α) {capacity bs mult : Nat} {mp : Option Nat} (hv : ValidParams capacity bs mult mp)
    {ops ops' : List (Op α K)} (hp : ops.Perm ops') (U : List α) (hoff : ∀ x, AllOffered ops x → x ∈ U)
    (hU : U.length ≤ internalCap capacity bs mult * bs) (he : ∀ op ∈ ops, Exact H op)
    (ht : ∀ op ∈ ops, Thorough H (build d capacity bs mult mp) op) :
    (∀ x, (lookup H (exec H (build d capacity bs mult mp) ops) x).2 =
      (lookup H (exec H (build d capacity bs mult mp) ops') x).2) ∧
    (exec H (build d capacity bs mult mp) ops).size = (exec H (build d capacity bs mult mp) ops').size :=
  histories_confluent d d hv hv ops ops'
    (fun x => ⟨fun ⟨o, ho, h⟩ => ⟨o, hp.mem_iff.1 ho, h⟩, fun ⟨o, ho, h⟩ => ⟨o, hp.mem_iff.2 ho, h⟩⟩) U hoff hU hU he ht
    (fun o ho => he o (hp.mem_iff.2 ho)) (fun o ho => ht o (hp.mem_iff.2 ho))

/-- Without room the order does matter: two one-slot buckets, three items; the item inserted last is the one missing. -/
theorem order_matters_when_full :
    let T := exec (K := Option Nat) exHasher (build 0 1 1 2 none) [.insert 1, .insert 2, .insert 3]
    let T' := exec (K := Option Nat) exHasher (build 0 1 1 2 none) [.insert 3, .insert 2, .insert 1]
    T.size = 2 ∧ T'.size = 2 ∧ (lookup exHasher T 1).2 = true ∧ (lookup exHasher T' 1).2 = false := by
  decide +kernel

/-- Non-vacuity: a history of single inserts and the same items as one GPU batch under a racing schedule; and on the XLA
path with a `max_probes` large enough for the batch. -/
example :
    let ops : List (Op Nat (Option Nat)) := [.insert 12, .insert 4, .insert 1, .insert 8, .insert 4]
    let sched := [(0, 0), (1, 0), (2, 0), (1, 0), (3, 1), (0, 0), (3, 0), (2, 0), (2, 0), (3, 0)]
    let ops' : List (Op Nat (Option Nat)) :=
      [.parallelInsert (.triton 4 sched) .safe [4, 8, 12, 1] [true, true, true, true] none]
    let ops'' : List (Op Nat (Option Nat)) := [.parallelInsert .xla .safe [4, 8, 12, 1, 8] [true, true, true, true, true] none]
    (∀ op ∈ ops', Exact exHasher op) ∧ (∀ op ∈ ops', Thorough exHasher (build 0 4 2 2 none) op) ∧
    (∀ op ∈ ops'', Thorough exHasher (build 0 4 2 2 (some 60)) op) ∧ internalCap 4 2 2 * 2 = 8 ∧
    (exec exHasher (build 0 4 2 2 none) ops).size = 4 ∧ (exec exHasher (build 0 4 2 2 none) ops').size = 4 ∧
    (exec exHasher (build 0 4 2 2 (some 60)) ops'').size = 4 := by
  refine ⟨?_, ?_, ?_, ?_⟩
  · intro op hop
    have := List.mem_singleton.1 hop
    subst this
    refine Or.inl ?_
    intro i hi
    have : i < 4 := hi
    match i, this with
    | 0, _ => rfl
    | 1, _ => rfl
    | 2, _ => rfl
    | 3, _ => rfl
  · intro op hop
    have := List.mem_singleton.1 hop
    subst this
    exact ⟨by decide +kernel, by decide +kernel⟩
  · intro op hop
    have := List.mem_singleton.1 hop
    subst this
    show _ ≤ _
    decide +kernel
  · decide +kernel

end HashTable
