import Verif.BgpqProps

/-!
# BGPQ: what comes out depends only on the keys that went in (C63)

Specification vocabulary:
* `SameKeys S S'` — the two collections hold the same keys with the same multiplicities (for every bound `k`, as many keys
  `≤ k`; keys that compare equal, such as `0.0` and `-0.0`, are not distinguished);
* `KeysAgree r r'` — the two lists have the same length and, position by position, keys that compare equal.
-/

namespace BgpqSpec

variable {K : Type u} [KeyInf K] {V : Type v} {V' : Type w}

/-- Number of pairs whose key is at most `k`. -/
def upTo (k : K) (S : List (K × V)) : Nat := S.countP fun p => KeyCmp.le p.1 k

/-- The same keys with the same multiplicities. -/
def SameKeys (S : List (K × V)) (S' : List (K × V')) : Prop := ∀ k : K, upTo k S = upTo k S'

/-- Position by position keys that compare equal. -/
def KeysAgree (r : List (K × V)) (r' : List (K × V')) : Prop :=
  r.length = r'.length ∧ ∀ (i : Nat) (x : K × V) (y : K × V'), r[i]? = some x → r'[i]? = some y →
    KeyCmp.le x.1 y.1 = true ∧ KeyCmp.le y.1 x.1 = true

end BgpqSpec

namespace Bgpq

open MergeModel BgpqSpec

variable {K : Type u} [KeyInf K] {V : Type v} {V' : Type w}

theorem upTo_perm {S S' : List (K × V)} (h : S.Perm S') (k : K) : upTo k S = upTo k S' := h.countP_eq _

theorem upTo_append (k : K) (S S' : List (K × V)) : upTo k (S ++ S') = upTo k S + upTo k S' := List.countP_append

theorem upTo_inf (S : List (K × V)) : upTo KeyPad.inf S = S.length := by
  unfold upTo
  rw [List.countP_eq_length]
  intro p _; exact KeyTop.le_inf p.1

theorem sameKeys_length {S : List (K × V)} {S' : List (K × V')} (h : SameKeys S S') : S.length = S'.length := by
  rw [← upTo_inf, ← upTo_inf, h]

theorem sameKeys_of_perm {S S' : List (K × V)} (h : S.Perm S') : SameKeys S S' := upTo_perm h

/-- In a sorted list the keys at most `k` are a prefix. -/
theorem sorted_upTo {r : List (K × V)} (hs : SortedKeys r) (k : K) (i : Nat) (x : K × V) (hx : r[i]? = some x) :
    KeyCmp.le x.1 k = true ↔ i < upTo k r := by
  induction r generalizing i with
  | nil => simp at hx
  | cons a r ih =>
    obtain ⟨h1, h2⟩ := List.pairwise_cons.1 hs
    unfold upTo at ih ⊢
    by_cases ha : KeyCmp.le a.1 k = true
    · rw [List.countP_cons_of_pos (by simpa using ha)]
      cases i with
      | zero => simp only [List.getElem?_cons_zero, Option.some.injEq] at hx; subst hx; simp [ha]
      | succ i =>
        simp only [List.getElem?_cons_succ] at hx
        rw [ih h2 i hx]; omega
    · rw [List.countP_cons_of_neg (by simpa using ha)]
      have h0 : r.countP (fun p => KeyCmp.le p.1 k) = 0 := by
        rw [List.countP_eq_zero]
        intro p hp hc
        exact ha (KeyLE.trans _ _ _ (h1 p hp) (by simpa using hc))
      rw [h0]
      simp only [Nat.not_lt_zero, iff_false]
      cases i with
      | zero => simp only [List.getElem?_cons_zero, Option.some.injEq] at hx; subst hx; exact ha
      | succ i =>
        simp only [List.getElem?_cons_succ] at hx
        intro hc
        exact ha (KeyLE.trans _ _ _ (h1 x (List.mem_of_getElem? hx)) hc)

/-- Sorted lists with the same keys agree position by position. -/
theorem keysAgree_of_sorted {r : List (K × V)} {r' : List (K × V')} (hs : SortedKeys r) (hs' : SortedKeys r')
    (h : SameKeys r r') : KeysAgree r r' := by
  refine ⟨sameKeys_length h, ?_⟩
  intro i x y hx hy
  constructor
  · rw [sorted_upTo hs y.1 i x hx, h]
    exact (sorted_upTo hs' y.1 i y hy).1 (KeyLE.refl _)
  · rw [sorted_upTo hs' x.1 i y hy, ← h]
    exact (sorted_upTo hs x.1 i x hx).1 (KeyLE.refl _)

theorem upTo_items_fin {k : K} (hk : KeyPad.isFin k = true) (r : List (K × V)) : upTo k (items r) = upTo k r := by
  unfold upTo items
  rw [List.countP_filter]
  apply List.countP_congr
  intro p _
  simp only [Bool.and_eq_true, and_iff_left_iff_imp]
  intro hle
  rw [KeyInf.isFin_eq] at hk ⊢
  simp only [Bool.not_eq_true'] at hk ⊢
  cases hc : KeyCmp.le KeyPad.inf p.1 with
  | false => rfl
  | true => rw [KeyLE.trans _ _ _ hc hle] at hk; cases hk

theorem upTo_infinite {k : K} (hk : KeyPad.isFin k = false) (r : List (K × V)) : upTo k r = r.length := by
  unfold upTo
  rw [List.countP_eq_length]
  intro p _
  rw [KeyInf.isFin_eq] at hk
  simp only [Bool.not_eq_false'] at hk
  exact KeyLE.trans _ _ _ (KeyTop.le_inf p.1) hk

/-- The keys of a batch of the `n` smallest items, counted. -/
theorem delete_counts {n : Nat} {S S₁ r : List (K × V)} (h1 : r.length = n) (h3 : (items r ++ S₁).Perm S)
    (h4 : ∀ x ∈ r, ∀ y ∈ S₁, KeyCmp.le x.1 y.1 = true) (h5 : (items r).length < n → S₁ = []) (k : K) :
    upTo k r = (if KeyPad.isFin k then min n (upTo k S) else n) ∧
    upTo k (items r) = min n (upTo k S) := by
  have hperm := upTo_perm h3 k
  rw [upTo_append] at hperm
  have hle : (items r).length ≤ n := by
    rw [← h1]; exact List.length_filter_le _ _
  cases hk : KeyPad.isFin k with
  | false =>
    simp only [Bool.false_eq_true, if_false]
    refine ⟨by rw [upTo_infinite hk, h1], ?_⟩
    rw [upTo_infinite hk (items r), upTo_infinite hk S]
    have hl := h3.length_eq
    rw [List.length_append] at hl
    by_cases hlt : (items r).length < n
    · rw [h5 hlt] at hl; simp only [List.length_nil] at hl; omega
    · omega
  | true =>
    simp only [if_true]
    rw [upTo_items_fin hk] at hperm ⊢
    have key : upTo k r = min n (upTo k S) := by
      by_cases h0 : upTo k S₁ = 0
      · have : upTo k r ≤ n := by rw [← h1]; exact List.countP_le_length
        omega
      · have hex : ∃ y ∈ S₁, KeyCmp.le y.1 k = true := by
          unfold upTo at h0
          rw [List.countP_eq_zero] at h0
          apply Classical.byContradiction
          intro hc
          exact h0 fun y hy hle => hc ⟨y, hy, by simpa using hle⟩
        obtain ⟨y, hy, hyk⟩ := hex
        have hall : upTo k r = n := by
          rw [← h1]
          unfold upTo
          rw [List.countP_eq_length]
          intro x hx
          exact KeyLE.trans _ _ _ (h4 x hx y hy) hyk
        omega
    exact ⟨key, key⟩

/-- **C63 (1).**  Two queues of the same batch size — however they were reached, whatever their capacities and value
classes — that hold the same keys return batches of the same keys from `delete_mins`, and hold the same keys
afterwards. -/
theorem delete_mins_determined {total total' batch : Nat} (ht : 0 < total) (ht' : 0 < total') (hb : 0 < batch)
    {dflt : V} {dflt' : V'} (hcap : (build total batch dflt : Heap K V).maxSize + batch ≤ 2 ^ 32)
    (hcap' : (build total' batch dflt' : Heap K V').maxSize + batch ≤ 2 ^ 32) {h : Heap K V} {h' : Heap K V'}
    (hr : Reachable total batch dflt h) (hr' : Reachable total' batch dflt' h')
    (hs : SameKeys (contents h) (contents h')) :
    ∃ h₁ h₁' r r', deleteMins h = some (h₁, r) ∧ deleteMins h' = some (h₁', r') ∧ KeysAgree r r' ∧
      SameKeys (contents h₁) (contents h₁') ∧ h₁.size = h₁'.size := by
  obtain ⟨i1, i2, i3⟩ := reachable_inv ht hb hcap hr
  obtain ⟨i1', i2', i3'⟩ := reachable_inv ht' hb hcap' hr'
  obtain ⟨h₁, r, d1, ⟨sz, _, e, s1, s2, s3, s4, s5⟩, _⟩ := delete_step i1 (by rw [i2, i3]; exact hcap)
  simp only [Option.some.injEq] at e
  subst e
  obtain ⟨h₁', r', d1', ⟨sz', _, e', s1', s2', s3', s4', s5'⟩, _⟩ := delete_step i1' (by rw [i2', i3']; exact hcap')
  simp only [Option.some.injEq] at e'
  subst e'
  rw [i2] at s1 s5
  rw [i2'] at s1' s5'
  have hc := delete_counts s1 s3 s4 s5
  have hc' := delete_counts s1' s3' s4' s5'
  have hk : SameKeys (contents h₁) (contents h₁') := by
    intro k
    have h1 := upTo_perm s3 k
    have h1' := upTo_perm s3' k
    rw [upTo_append] at h1 h1'
    have h2 := (hc k).2
    have h2' := (hc' k).2
    have h3 := hs k
    omega
  refine ⟨h₁, h₁', r, r', d1, d1', keysAgree_of_sorted s2 s2' ?_, hk, ?_⟩
  · intro k; rw [(hc k).1, (hc' k).1, hs k]
  · have e1 : h₁.size = (contents h₁).length := sz
    have e2 : h₁'.size = (contents h₁').length := sz'
    rw [e1, e2, sameKeys_length hk]

/-- Two operations that are the same as far as keys are concerned: two `delete_mins`, or two inserts of batches whose
finite keys are the same. -/
def OpAgree : Op K V → Op K V' → Prop
  | .insert b, .insert b' => SameKeys (items b) (items b')
  | .deleteMins, .deleteMins => True
  | _, _ => False

/-- Two operations give a caller the same keys and sizes. -/
def OutAgree (o : Out K V) (o' : Out K V') : Prop :=
  o.size = o'.size ∧ match o.ret, o'.ret with
    | none, none => True
    | some r, some r' => KeysAgree r r'
    | _, _ => False

/-- Every insert of the history finds room (fewer than `max_size + batch_size` items with the new ones). -/
def RoomFor (n cap : Nat) : Nat → List (Op K V) → Prop
  | _, [] => True
  | s, .insert b :: ops => s + (items b).length < cap + n ∧ RoomFor n cap (s + (items b).length) ops
  | s, .deleteMins :: ops => RoomFor n cap (s - n) ops

/-- Pairs of lists of equal length, related entry by entry. -/
inductive Pairwise2 {α : Type u'} {β : Type v'} (R : α → β → Prop) : List α → List β → Prop
  | nil : Pairwise2 R [] []
  | cons {a b l l'} : R a b → Pairwise2 R l l' → Pairwise2 R (a :: l) (b :: l')

theorem size_contents {total batch : Nat} (ht : 0 < total) (hb : 0 < batch) {dflt : V}
    (hcap : (build total batch dflt : Heap K V).maxSize + batch ≤ 2 ^ 32) {h : Heap K V}
    (hr : Reachable total batch dflt h) : h.size = (contents h).length := by
  obtain ⟨i1, i2, i3⟩ := reachable_inv ht hb hcap hr
  exact size_eq i1 (by rw [i2, i3]; exact hcap)

/-- The length of what remains after a `delete_mins`. -/
theorem delete_length {total batch : Nat} (ht : 0 < total) (hb : 0 < batch) {dflt : V}
    (hcap : (build total batch dflt : Heap K V).maxSize + batch ≤ 2 ^ 32) {h h₁ : Heap K V} {r : List (K × V)}
    (hr : Reachable total batch dflt h) (hd : deleteMins h = some (h₁, r)) :
    (contents h₁).length = (contents h).length - batch := by
  obtain ⟨i1, i2, i3⟩ := reachable_inv ht hb hcap hr
  obtain ⟨h₂, r₂, d1, ⟨_, _, e, s1, _, s3, s4, s5⟩, _⟩ := delete_step i1 (by rw [i2, i3]; exact hcap)
  simp only [Option.some.injEq] at e
  subst e
  rw [hd] at d1
  simp only [Option.some.injEq, Prod.mk.injEq] at d1
  obtain ⟨rfl, rfl⟩ := d1
  rw [i2] at s1 s5
  have hl := s3.length_eq
  rw [List.length_append] at hl
  have hle : (items r).length ≤ batch := by rw [← s1]; exact List.length_filter_le _ _
  by_cases hlt : (items r).length < batch
  · rw [s5 hlt] at hl ⊢; simp only [List.length_nil] at hl ⊢; omega
  · omega

/-- **C63 (2).**  Two queues of the same batch size holding the same keys are indistinguishable by keys: any two histories
that insert batches of the same finite keys (in any order within a batch, with any padding and values) and delete at the
same points, and that never overflow either queue, return the same keys and report the same sizes at every step. -/
theorem histories_agree {total total' batch : Nat} (ht : 0 < total) (ht' : 0 < total') (hb : 0 < batch)
    {dflt : V} {dflt' : V'} (hcap : (build total batch dflt : Heap K V).maxSize + batch ≤ 2 ^ 32)
    (hcap' : (build total' batch dflt' : Heap K V').maxSize + batch ≤ 2 ^ 32) {h : Heap K V} {h' : Heap K V'}
    (hr : Reachable total batch dflt h) (hr' : Reachable total' batch dflt' h')
    (hs : SameKeys (contents h) (contents h')) (ops : List (Op K V)) (ops' : List (Op K V'))
    (hops : Pairwise2 OpAgree ops ops') (hw : ∀ op ∈ ops, WellFormed batch op) (hw' : ∀ op ∈ ops', WellFormed batch op)
    (hroom : RoomFor batch h.maxSize h.size ops) (hroom' : RoomFor batch h'.maxSize h'.size ops') :
    ∃ g g' outs outs', run h ops = some (g, outs) ∧ run h' ops' = some (g', outs') ∧
      Pairwise2 OutAgree outs outs' ∧ SameKeys (contents g) (contents g') := by
  induction hops generalizing h h' with
  | nil => exact ⟨h, h', [], [], rfl, rfl, .nil, hs⟩
  | @cons op op' ops ops' hop hops ih =>
    have hms := (reachable_inv ht hb hcap hr).2.2
    have hms' := (reachable_inv ht' hb hcap' hr').2.2
    cases op with
    | insert b =>
      cases op' with
      | deleteMins => exact hop.elim
      | insert b' =>
        have hbl : b.length = batch := hw (.insert b) (by simp)
        have hbl' : b'.length = batch := hw' (.insert b') (by simp)
        obtain ⟨r1, r2⟩ := hroom
        obtain ⟨r1', r2'⟩ := hroom'
        have hsz := size_contents ht hb hcap hr
        have hsz' := size_contents ht' hb hcap' hr'
        have p := (bgpq_conserves ht hb hcap hr).1 b hbl (by rw [← hsz]; exact r1)
        have p' := (bgpq_conserves ht' hb hcap' hr').1 b' hbl' (by rw [← hsz']; exact r1')
        have hr₁ : Reachable total batch dflt (insert h b) := .insert hr hbl
        have hr₁' : Reachable total' batch dflt' (insert h' b') := .insert hr' hbl'
        have hsz₁ := size_contents ht hb hcap hr₁
        have hsz₁' := size_contents ht' hb hcap' hr₁'
        have hop' : SameKeys (items b) (items b') := hop
        have hk : SameKeys (contents (insert h b)) (contents (insert h' b')) := by
          intro k
          rw [upTo_perm p, upTo_perm p', upTo_append, upTo_append, hs k, hop' k]
        have hl := p.length_eq
        have hl' := p'.length_eq
        rw [List.length_append] at hl hl'
        obtain ⟨g, g', outs, outs', q1, q2, q3, q4⟩ := ih hr₁ hr₁' hk (fun o ho => hw o (by simp [ho]))
          (fun o ho => hw' o (by simp [ho]))
          (by rw [(reachable_inv ht hb hcap hr₁).2.2, ← hms, hsz₁, hl, ← hsz]; exact r2)
          (by rw [(reachable_inv ht' hb hcap' hr₁').2.2, ← hms', hsz₁', hl', ← hsz']; exact r2')
        refine ⟨g, g', _, _, by simp only [run, step, Option.bind_some, q1, Option.map_some]; rfl,
          by simp only [run, step, Option.bind_some, q2, Option.map_some]; rfl, .cons ⟨?_, trivial⟩ q3, q4⟩
        show (insert h b).size = (insert h' b').size
        rw [hsz₁, hsz₁', sameKeys_length hk]
    | deleteMins =>
      cases op' with
      | insert b' => exact hop.elim
      | deleteMins =>
        obtain ⟨h₁, h₁', r, r', d1, d1', ka, hk, hz⟩ := delete_mins_determined ht ht' hb hcap hcap' hr hr' hs
        have hr₁ : Reachable total batch dflt h₁ := .delete hr d1
        have hr₁' : Reachable total' batch dflt' h₁' := .delete hr' d1'
        obtain ⟨g, g', outs, outs', q1, q2, q3, q4⟩ := ih hr₁ hr₁' hk (fun o ho => hw o (by simp [ho]))
          (fun o ho => hw' o (by simp [ho]))
          (by
            rw [(reachable_inv ht hb hcap hr₁).2.2, ← hms, size_contents ht hb hcap hr₁, delete_length ht hb hcap hr d1,
              ← size_contents ht hb hcap hr]
            exact hroom)
          (by
            rw [(reachable_inv ht' hb hcap' hr₁').2.2, ← hms', size_contents ht' hb hcap' hr₁',
              delete_length ht' hb hcap' hr' d1', ← size_contents ht' hb hcap' hr']
            exact hroom')
        refine ⟨g, g', _, _, by simp only [run, step, d1, Option.map_some, Option.bind_some, q1]; rfl,
          by simp only [run, step, d1', Option.map_some, Option.bind_some, q2]; rfl, .cons ⟨hz, ka⟩ q3, q4⟩

/-- Inserting a list of batches, one after the other. -/
def insertAll (h : Heap K V) (blocks : List (List (K × V))) : Heap K V := blocks.foldl insert h

theorem insertAll_contents {total batch : Nat} (ht : 0 < total) (hb : 0 < batch) {dflt : V}
    (hcap : (build total batch dflt : Heap K V).maxSize + batch ≤ 2 ^ 32) {h : Heap K V}
    (hr : Reachable total batch dflt h) (blocks : List (List (K × V))) (hbl : ∀ b ∈ blocks, b.length = batch)
    (hfit : (contents h).length + (items blocks.flatten).length < h.maxSize + batch) :
    Reachable total batch dflt (insertAll h blocks) ∧
    (contents (insertAll h blocks)).Perm (contents h ++ items blocks.flatten) := by
  induction blocks generalizing h with
  | nil => exact ⟨hr, by simp [insertAll, items]⟩
  | cons b blocks ih =>
    have e : items (b :: blocks).flatten = items b ++ items blocks.flatten := by
      simp [items, List.filter_append]
    rw [e] at hfit ⊢
    rw [List.length_append] at hfit
    have hb' := hbl b (by simp)
    have p := (bgpq_conserves ht hb hcap hr).1 b hb' (by omega)
    have hr₁ : Reachable total batch dflt (insert h b) := .insert hr hb'
    have hms : (insert h b).maxSize = h.maxSize := by
      rw [(reachable_inv ht hb hcap hr₁).2.2, (reachable_inv ht hb hcap hr).2.2]
    have hl := p.length_eq
    rw [List.length_append] at hl
    obtain ⟨a1, a2⟩ := ih hr₁ (fun c hc => hbl c (by simp [hc])) (by rw [hms, hl]; omega)
    refine ⟨a1, ?_⟩
    show (contents (insertAll (insert h b) blocks)).Perm _
    refine a2.trans ?_
    rw [← List.append_assoc]
    exact p.append_right _

/-- **C63 (3).**  A priority queue sorts, whatever the batching: distribute the same items over batches in two ways
(different orders, different padding, queues of different capacities that can hold them all); draining the two queues
gives the same key sequence, and each gives exactly the items with their values. -/
theorem drain_order_irrelevant {total total' batch : Nat} (ht : 0 < total) (ht' : 0 < total') (hb : 0 < batch)
    {dflt dflt' : V} (hcap : (build total batch dflt : Heap K V).maxSize + batch ≤ 2 ^ 32)
    (hcap' : (build total' batch dflt' : Heap K V).maxSize + batch ≤ 2 ^ 32)
    (blocks blocks' : List (List (K × V))) (hbl : ∀ b ∈ blocks, b.length = batch) (hbl' : ∀ b ∈ blocks', b.length = batch)
    (hsame : (items blocks.flatten).Perm (items blocks'.flatten))
    (hfit : (items blocks.flatten).length < (build total batch dflt : Heap K V).maxSize + batch)
    (hfit' : (items blocks.flatten).length < (build total' batch dflt' : Heap K V).maxSize + batch) :
    let h := insertAll (build total batch dflt) blocks
    let h' := insertAll (build total' batch dflt') blocks'
    ∃ g g' out out', drain ((h.size + batch - 1) / batch) h = some (g, out) ∧
      drain ((h'.size + batch - 1) / batch) h' = some (g', out') ∧ KeysAgree out out' ∧
      out.Perm (items blocks.flatten) ∧ out'.Perm (items blocks.flatten) := by
  intro h h'
  obtain ⟨hr, p⟩ := insertAll_contents ht hb hcap .build blocks hbl (by rw [contents_build]; simpa using hfit)
  obtain ⟨hr', p'⟩ := insertAll_contents ht' hb hcap' .build blocks' hbl'
    (by rw [contents_build, ← hsame.length_eq]; simpa using hfit')
  rw [contents_build, List.nil_append] at p p'
  obtain ⟨g, out, d1, _, d3, d4⟩ := drain_sorted ht hb hcap hr
  obtain ⟨g', out', d1', _, d3', d4'⟩ := drain_sorted ht' hb hcap' hr'
  have q : out.Perm (items blocks.flatten) := d4.trans p
  have q' : out'.Perm (items blocks.flatten) := (d4'.trans p').trans hsame.symm
  exact ⟨g, g', out, out', d1, d1', keysAgree_of_sorted d3 d3' (sameKeys_of_perm (q.trans q'.symm)), q, q'⟩

/-- Keys agree, values need not: with two items of equal key, the order of insertion can decide which comes out first. -/
theorem tie_order_observable :
    (drain 2 (insertAll (build 6 2 0 : Heap (Option Nat) Nat) [[(some 1, 10), (some 1, 11)]])).map Prod.snd =
      some [(some 1, 10), (some 1, 11)] ∧
    (drain 2 (insertAll (build 6 2 0 : Heap (Option Nat) Nat) [[(some 1, 11), (some 1, 10)]])).map Prod.snd =
      some [(some 1, 11), (some 1, 10)] := by
  decide +kernel

/-- When a queue overflows the order does matter: the same batches in another order leave different keys. -/
theorem order_matters_when_overfull :
    let b : Heap (Option Nat) Nat := build 2 2 0
    (contents (insertAll b [[(some 1, 1), (some 2, 2)], [(some 3, 3), (none, 0)], [(some 5, 5), (some 4, 4)]])).map Prod.fst =
      [some 1, some 2, some 5] ∧
    (contents (insertAll b [[(some 1, 1), (some 2, 2)], [(some 5, 5), (some 4, 4)], [(some 3, 3), (none, 0)]])).map Prod.fst =
      [some 1, some 2, some 3] := by
  decide +kernel

/-- Non-vacuity: seven items over four and over five batches, in queues of different capacity. -/
example :
    let blocks : List (List (Option Nat × Nat)) :=
      [[(some 9, 1), (some 2, 2)], [(some 5, 5), (none, 0)], [(some 3, 3), (some 4, 4)], [(some 2, 7), (some 8, 8)]]
    let blocks' : List (List (Option Nat × Nat)) :=
      [[(none, 3), (some 8, 8)], [(some 4, 4), (some 3, 3)], [(some 2, 7), (some 5, 5)], [(some 9, 1), (none, 9)],
        [(some 2, 2), (none, 1)]]
    (∀ b ∈ blocks, b.length = 2) ∧ (∀ b ∈ blocks', b.length = 2) ∧
    (BgpqSpec.items blocks.flatten).Perm (BgpqSpec.items blocks'.flatten) ∧
    (BgpqSpec.items blocks.flatten).length < (build 8 2 0 : Heap (Option Nat) Nat).maxSize + 2 ∧
    (drain 4 (insertAll (build 8 2 0) blocks)).map (fun x => x.2.map Prod.fst) =
      some [some 2, some 2, some 3, some 4, some 5, some 8, some 9] ∧
    (drain 4 (insertAll (build 20 2 0) blocks')).map (fun x => x.2.map Prod.fst) =
      some [some 2, some 2, some 3, some 4, some 5, some 8, some 9] := by
  decide +kernel

end Bgpq
