import Verif.Search
import Verif.UpdateProps

/-!
# C96: a search that re-opens states (a cost array beside the table)

The usual best-first search: beside the table the user keeps an array with one cost per slot, first all `inf`.  A batch of
generated states goes through `parallel_insert`; the lanes selected by `unique_mask` whose key is below the cost stored at their
index are *improvements*: their key is written to the cost array with `xnp.update_on_condition` and pushed on the queue with the
index.  States found again with a better key are pushed again; the old entry stays in the queue and is recognised, when it is
returned, by its key being above the stored cost.
-/

namespace SearchCostSpec

/-- What a search knows: every generated pair (key, state) so far, and the open pairs. -/
structure S (α : Type u) (K : Type v) where
  gen : List (K × α)
  pend : List (K × α)

variable {α : Type u} {K : Type v} [KeyPad K]

/-- The pairs of a batch: its filled lanes. -/
def pairs (xs : List α) (filled : List Bool) (keys : List K) : List (K × α) :=
  (List.range xs.length).filterMap fun l => match xs[l]?, filled[l]?, keys[l]? with
    | some x, some true, some k => some (k, x)
    | _, _, _ => none

/-- `p` is a best pair of its state in the batch and strictly better than everything generated before for its state. -/
def Improves (gen new : List (K × α)) (p : K × α) : Prop :=
  p ∈ new ∧ (∀ q ∈ new, q.2 = p.2 → KeyCmp.le p.1 q.1 = true) ∧ ∀ q ∈ gen, q.2 = p.2 → KeyCmp.le q.1 p.1 = false

/-- `p` is at least as good as everything generated for its state. -/
def Least (gen : List (K × α)) (p : K × α) : Prop := ∀ q ∈ gen, q.2 = p.2 → KeyCmp.le p.1 q.1 = true

/-- What a `pop` shows for one entry: the key, the state read from the table, and whether the entry is up to date. -/
abbrev Shown (α : Type u) (K : Type v) := K × Option α × Bool

/-- One step of the search with batches of `n`. -/
inductive Step (n : Nat) : S α K → SearchSpec.Op α K → List (Shown α K) → S α K → Prop
  | expand {gen pend be mode xs filled keys} (pushed : List (K × α)) :
      (pushed.map Prod.snd).Nodup →
      (∀ p ∈ pushed, Improves gen (pairs xs filled keys) p) →
      (∀ p, Improves gen (pairs xs filled keys) p → p.2 ∈ pushed.map Prod.snd) →
      Step n ⟨gen, pend⟩ (.expand be mode xs filled keys) [] ⟨gen ++ pairs xs filled keys, pend ++ pushed⟩
  | pop {gen pend} (best rest : List (K × α)) (flag : K × α → Bool) : (best ++ rest).Perm pend →
      best.length = min n pend.length →
      best.Pairwise (fun p q => KeyCmp.le p.1 q.1 = true) →
      (∀ p ∈ best, ∀ q ∈ rest, KeyCmp.le p.1 q.1 = true) →
      (∀ p ∈ best, flag p = true ↔ Least gen p) →
      Step n ⟨gen, pend⟩ .pop (best.map fun p => (p.1, some p.2, flag p)) ⟨gen, rest⟩

inductive Trace (n : Nat) : S α K → List (SearchSpec.Op α K) → List (List (Shown α K)) → S α K → Prop
  | nil (s) : Trace n s [] [] s
  | cons {s s₁ s' op ops out outs} : Step n s op out s₁ → Trace n s₁ ops outs s' →
      Trace n s (op :: ops) (out :: outs) s'

/-- Best-first with keys that never decrease along an expansion: every key of a batch is at least every key returned
before it (`R`: the keys returned so far). -/
def Monotone : List K → List (SearchSpec.Op α K) → List (List (Shown α K)) → Prop
  | R, .expand _ _ _ _ keys :: ops, out :: outs => (∀ k ∈ keys, ∀ r ∈ R, KeyCmp.le r k = true) ∧
      Monotone (R ++ out.map fun o => o.1) ops outs
  | R, .pop :: ops, out :: outs => Monotone (R ++ out.map fun o => o.1) ops outs
  | _, _, _ => True

/-- Everything generated in a history. -/
def generated : List (SearchSpec.Op α K) → List (K × α)
  | [] => []
  | .expand _ _ xs filled keys :: ops => pairs xs filled keys ++ generated ops
  | .pop :: ops => generated ops

/-! ## Consequences of the specification -/

section
variable {K : Type v} [KeyTop K]

theorem mem_pairs {xs : List α} {filled : List Bool} {keys : List K} {p : K × α} :
    p ∈ pairs xs filled keys ↔ ∃ l : Nat, xs[l]? = some p.2 ∧ filled[l]? = some true ∧ keys[l]? = some p.1 := by
  unfold pairs
  rw [List.mem_filterMap]
  constructor
  · rintro ⟨l, _, h⟩
    refine ⟨l, ?_⟩
    split at h
    · rename_i x k h1 h2 h3
      cases h
      exact ⟨h1, h2, h3⟩
    · cases h
  · rintro ⟨l, h1, h2, h3⟩
    refine ⟨l, List.mem_range.2 (List.getElem?_eq_some_iff.1 h1).1, ?_⟩
    simp [h1, h2, h3]

/-- Two entries of the same state have different keys. -/
def Apart (p q : K × α) : Prop := p.2 = q.2 → ¬ (KeyCmp.le p.1 q.1 = true ∧ KeyCmp.le q.1 p.1 = true)

/-- The entries made so far (`P`: returned, `pend`: open): generated pairs, of every generated state one with a least key,
no two of one state with the same key. -/
structure Entries (gen P pend : List (K × α)) : Prop where
  sub : ∀ p ∈ P ++ pend, p ∈ gen
  least : ∀ q ∈ gen, ∃ p ∈ P ++ pend, p.2 = q.2 ∧ Least gen p
  apart : (P ++ pend).Pairwise Apart

theorem Apart.symm {p q : K × α} (h : Apart p q) : Apart q p := fun e ⟨h1, h2⟩ => h e.symm ⟨h2, h1⟩

theorem exists_least (new : List (K × α)) (q : K × α) (hq : q ∈ new) :
    ∃ p ∈ new, p.2 = q.2 ∧ ∀ q' ∈ new, q'.2 = p.2 → KeyCmp.le p.1 q'.1 = true := by
  induction new generalizing q with
  | nil => cases hq
  | cons a l ih =>
    by_cases hex : ∃ q' ∈ l, q'.2 = q.2
    · obtain ⟨q', hq', e⟩ := hex
      obtain ⟨p, hp, e1, hmin⟩ := ih q' hq'
      by_cases hs : a.2 = p.2
      · cases hle : KeyCmp.le p.1 a.1 with
        | true =>
          refine ⟨p, by simp [hp], e1.trans e, ?_⟩
          intro q'' hq'' e''
          rcases List.mem_cons.1 hq'' with rfl | h
          · exact hle
          · exact hmin q'' h e''
        | false =>
          refine ⟨a, by simp, (hs.trans e1).trans e, ?_⟩
          intro q'' hq'' e''
          rcases List.mem_cons.1 hq'' with rfl | h
          · exact KeyLE.refl _
          · exact KeyLE.trans _ _ _ (KeyLE.le_of_not_le hle) (hmin q'' h (e''.trans hs))
      · refine ⟨p, by simp [hp], e1.trans e, ?_⟩
        intro q'' hq'' e''
        rcases List.mem_cons.1 hq'' with rfl | h
        · exact absurd e'' hs
        · exact hmin q'' h e''
    · rcases List.mem_cons.1 hq with rfl | h
      · refine ⟨q, by simp, rfl, ?_⟩
        intro q'' hq'' e''
        rcases List.mem_cons.1 hq'' with rfl | h
        · exact KeyLE.refl _
        · exact absurd ⟨q'', h, e''⟩ hex
      · exact absurd ⟨q, h, rfl⟩ hex

theorem step_entries {n : Nat} {s s' : S α K} {op : SearchSpec.Op α K} {out : List (Shown α K)} {P : List (K × α)}
    (h : Step n s op out s') (hP : Entries s.gen P s.pend) :
    ∃ best : List (K × α), out.map (fun o => (o.1, o.2.1)) = best.map (fun p => (p.1, some p.2)) ∧
      Entries s'.gen (P ++ best) s'.pend := by
  cases h with
  | @expand gen pend be mode xs filled keys pushed hnd himp hall =>
    refine ⟨[], rfl, ?_⟩
    rw [List.append_nil]
    obtain ⟨h1, h2, h3⟩ := hP
    simp only at h1 h2 h3
    refine ⟨?_, ?_, ?_⟩
    · intro p hp
      rw [← List.append_assoc] at hp
      rcases List.mem_append.1 hp with hp | hp
      · exact List.mem_append_left _ (h1 p hp)
      · exact List.mem_append_right _ (himp p hp).1
    · -- the least pair of the state among everything
      have key : ∀ q ∈ gen ++ pairs xs filled keys, ∀ p ∈ P ++ pend, p.2 = q.2 → Least gen p →
          ∃ p' ∈ P ++ (pend ++ pushed), p'.2 = q.2 ∧ Least (gen ++ pairs xs filled keys) p' := by
        intro q _ p hp e hl
        by_cases hb : ∃ r ∈ pairs xs filled keys, r.2 = p.2 ∧ KeyCmp.le p.1 r.1 = false
        · obtain ⟨r, hr, er, hlt⟩ := hb
          obtain ⟨m, hm, em, hmin⟩ := exists_least _ r hr
          have himpm : Improves gen (pairs xs filled keys) m := by
            refine ⟨hm, hmin, ?_⟩
            intro q' hq' e'
            cases hc : KeyCmp.le q'.1 m.1 with
            | false => rfl
            | true =>
              have h1 := hl q' hq' (e'.trans (em.trans er))
              have h2 := KeyLE.trans _ _ _ h1 (KeyLE.trans _ _ _ hc (hmin r hr em.symm))
              rw [hlt] at h2; cases h2
          obtain ⟨m', hm', e'⟩ := List.mem_map.1 (hall m himpm)
          have hi := himp m' hm'
          refine ⟨m', by simp [hm'], e'.trans (em.trans (er.trans e)), ?_⟩
          intro q' hq' eq'
          rcases List.mem_append.1 hq' with hq' | hq'
          · exact KeyLE.le_of_not_le (hi.2.2 q' hq' eq')
          · exact hi.2.1 q' hq' eq'
        · refine ⟨p, ?_, e, ?_⟩
          · rw [← List.append_assoc]; exact List.mem_append_left _ hp
          · intro q' hq' eq'
            rcases List.mem_append.1 hq' with hq' | hq'
            · exact hl q' hq' eq'
            · cases hc : KeyCmp.le p.1 q'.1 with
              | true => rfl
              | false => exact absurd ⟨q', hq', eq', hc⟩ hb
      intro q hq
      by_cases hold : ∃ q0 ∈ gen, q0.2 = q.2
      · obtain ⟨q0, hq0, e0⟩ := hold
        obtain ⟨p, hp, e, hl⟩ := h2 q0 hq0
        exact key q hq p hp (e.trans e0) hl
      · rcases List.mem_append.1 hq with hq' | hq'
        · exact absurd ⟨q, hq', rfl⟩ hold
        · obtain ⟨m, hm, em, hmin⟩ := exists_least _ q hq'
          have himpm : Improves gen (pairs xs filled keys) m :=
            ⟨hm, hmin, fun q' h' e' => absurd ⟨q', h', e'.trans em⟩ hold⟩
          obtain ⟨m', hm', e'⟩ := List.mem_map.1 (hall m himpm)
          have hi := himp m' hm'
          refine ⟨m', by simp [hm'], e'.trans em, ?_⟩
          intro q' hq'' eq'
          rcases List.mem_append.1 hq'' with hq'' | hq''
          · exact absurd ⟨q', hq'', eq'.trans (e'.trans em)⟩ hold
          · exact hi.2.1 q' hq'' eq'
    · show (P ++ (pend ++ pushed)).Pairwise Apart
      rw [← List.append_assoc, List.pairwise_append]
      refine ⟨h3, ?_, ?_⟩
      · rw [List.Nodup, List.pairwise_map] at hnd
        exact hnd.imp fun hne e => absurd e hne
      · intro p hp q hq e hh
        have := (himp q hq).2.2 p (h1 p hp) e
        rw [hh.1] at this; cases this
  | @pop gen pend best rest flag hp hlen hs hle hf =>
    refine ⟨best, by simp, ?_⟩
    have hperm : (P ++ best ++ rest).Perm (P ++ pend) := by
      rw [List.append_assoc]; exact List.Perm.append_left _ hp
    obtain ⟨h1, h2, h3⟩ := hP
    refine ⟨fun p h => h1 p (hperm.mem_iff.1 h), ?_, ?_⟩
    · intro q hq
      obtain ⟨p, hp', e, hl⟩ := h2 q hq
      exact ⟨p, hperm.mem_iff.2 hp', e, hl⟩
    · exact (hperm.pairwise_iff fun h => h.symm).2 h3

theorem trace_entries {n : Nat} {s s' : S α K} {ops : List (SearchSpec.Op α K)} {outs : List (List (Shown α K))}
    (h : Trace n s ops outs s') : ∀ {P : List (K × α)}, Entries s.gen P s.pend →
    ∃ best : List (K × α), outs.flatten.map (fun o => (o.1, o.2.1)) = best.map (fun p => (p.1, some p.2)) ∧
      Entries s'.gen (P ++ best) s'.pend := by
  induction h with
  | nil s => intro P hP; exact ⟨[], rfl, by rw [List.append_nil]; exact hP⟩
  | cons h1 _ ih =>
    intro P hP
    obtain ⟨b1, e1, hP1⟩ := step_entries h1 hP
    obtain ⟨b2, e2, hP2⟩ := ih hP1
    exact ⟨b1 ++ b2, by rw [List.flatten_cons, List.map_append, e1, e2, List.map_append], by rw [← List.append_assoc]; exact hP2⟩

theorem step_gen {n : Nat} {s s' : S α K} {op : SearchSpec.Op α K} {out : List (Shown α K)} (h : Step n s op out s') :
    ∀ q ∈ s.gen, q ∈ s'.gen := by
  cases h with
  | expand => exact fun q hq => List.mem_append_left _ hq
  | pop => exact fun q hq => hq

theorem trace_gen {n : Nat} {s s' : S α K} {ops : List (SearchSpec.Op α K)} {outs : List (List (Shown α K))}
    (h : Trace n s ops outs s') : ∀ q ∈ s.gen, q ∈ s'.gen := by
  induction h with
  | nil s => exact fun q hq => hq
  | cons h1 _ ih => exact fun q hq => ih q (step_gen h1 q hq)

theorem trace_generated {n : Nat} {s s' : S α K} {ops : List (SearchSpec.Op α K)} {outs : List (List (Shown α K))}
    (h : Trace n s ops outs s') : s'.gen = s.gen ++ generated ops := by
  induction h with
  | nil s => simp [generated]
  | cons h1 _ ih =>
    rw [ih]
    cases h1 with
    | expand => simp [generated]
    | pop => simp [generated]

theorem step_flags {n : Nat} {s s' : S α K} {op : SearchSpec.Op α K} {out : List (Shown α K)} (h : Step n s op out s') :
    ∀ o ∈ out, ∃ x, o.2.1 = some x ∧ (o.2.2 = true ↔ Least s.gen (o.1, x)) := by
  cases h with
  | expand => simp
  | pop best rest flag hp hlen hs hle hf =>
    intro o ho
    obtain ⟨p, hp', rfl⟩ := List.mem_map.1 ho
    exact ⟨p.2, rfl, hf p hp'⟩

/-- An entry whose key is least among everything ever generated was shown as up to date. -/
theorem trace_flags {n : Nat} {s s' : S α K} {ops : List (SearchSpec.Op α K)} {outs : List (List (Shown α K))}
    (h : Trace n s ops outs s') : ∀ o ∈ outs.flatten, ∃ x, o.2.1 = some x ∧ (Least s'.gen (o.1, x) → o.2.2 = true) := by
  induction h with
  | nil s => simp
  | cons h1 ht ih =>
    intro o ho
    rw [List.flatten_cons] at ho
    rcases List.mem_append.1 ho with ho | ho
    · obtain ⟨x, e, hf⟩ := step_flags h1 o ho
      exact ⟨x, e, fun hl => hf.2 fun q hq => hl q (trace_gen ht q (step_gen h1 q hq))⟩
    · exact ih o ho

theorem pairwise_of_map {best : List (K × α)} {outs : List (Shown α K)}
    (he : outs.map (fun o => (o.1, o.2.1)) = best.map (fun p => (p.1, some p.2))) (h : best.Pairwise Apart) :
    outs.Pairwise fun o o' => o.2.1 = o'.2.1 → ¬ (KeyCmp.le o.1 o'.1 = true ∧ KeyCmp.le o'.1 o.1 = true) := by
  have h1 : (best.map fun p => (p.1, some p.2)).Pairwise fun (a b : K × Option α) =>
      a.2 = b.2 → ¬ (KeyCmp.le a.1 b.1 = true ∧ KeyCmp.le b.1 a.1 = true) := by
    rw [List.pairwise_map]
    exact h.imp fun {a b} hab e => hab (Option.some.inj e)
  rw [← he, List.pairwise_map] at h1
  exact h1

/-- **Every state is returned with its best key.**  In every search from scratch: no two returned entries of one state have
the same key; and for every generated state, an entry with its least key is still open or was returned, shown as up to date. -/
theorem trace_best {n : Nat} {s' : S α K} {ops : List (SearchSpec.Op α K)} {outs : List (List (Shown α K))}
    (h : Trace n ⟨[], []⟩ ops outs s') :
    (outs.flatten.Pairwise fun o o' => o.2.1 = o'.2.1 → ¬ (KeyCmp.le o.1 o'.1 = true ∧ KeyCmp.le o'.1 o.1 = true)) ∧
    ∀ q ∈ s'.gen, ∃ k, Least s'.gen (k, q.2) ∧ (k, q.2) ∈ s'.gen ∧ ((k, q.2) ∈ s'.pend ∨ (k, some q.2, true) ∈ outs.flatten) := by
  obtain ⟨best, he, hE⟩ := trace_entries h (P := []) ⟨by simp, by simp, by simp⟩
  rw [List.nil_append] at hE
  refine ⟨pairwise_of_map he (List.pairwise_append.1 hE.apart).1, ?_⟩
  intro q hq
  obtain ⟨p, hp, e, hl⟩ := hE.least q hq
  have hg := hE.sub p hp
  obtain ⟨k, x⟩ := p
  simp only at e
  subst e
  refine ⟨k, hl, hg, ?_⟩
  rcases List.mem_append.1 hp with hp | hp
  · right
    have hm : (k, some q.2) ∈ outs.flatten.map fun o => (o.1, o.2.1) := by
      rw [he]; exact List.mem_map.2 ⟨_, hp, rfl⟩
    obtain ⟨⟨k', y, f⟩, ho, eo⟩ := List.mem_map.1 hm
    simp only [Prod.mk.injEq] at eo
    obtain ⟨rfl, rfl⟩ := eo
    obtain ⟨x, ex, hf⟩ := trace_flags h _ ho
    simp only [Option.some.injEq] at ex
    subst ex
    have : f = true := hf hl
    subst this
    exact ho
  · exact Or.inl hp

theorem trace_final {n : Nat} {s s' : S α K} {ops : List (SearchSpec.Op α K)} {outs : List (List (Shown α K))}
    (h : Trace n s ops outs s') : ∀ {R : List K} {F : List (K × α)}, Monotone R ops outs →
    (∀ p ∈ F, p.1 ∈ R ∧ Least s.gen p) →
    (∀ p ∈ F, Least s'.gen p) ∧ ∀ o ∈ outs.flatten, o.2.2 = true → ∃ x, o.2.1 = some x ∧ Least s'.gen (o.1, x) := by
  induction h with
  | nil s => intro R F _ hF; exact ⟨fun p hp => (hF p hp).2, by simp⟩
  | @cons s s₁ s' op ops out outs h1 ht ih =>
    intro R F hm hF
    cases h1 with
    | @expand gen pend be mode xs filled keys pushed _ _ _ =>
      obtain ⟨hk, hm'⟩ := hm
      have := ih hm' (F := F) (fun p hp => ⟨List.mem_append_left _ (hF p hp).1, ?_⟩)
      · exact ⟨this.1, by rw [List.flatten_cons, List.nil_append]; exact this.2⟩
      · intro q hq e
        rcases List.mem_append.1 hq with hq | hq
        · exact (hF p hp).2 q hq e
        · obtain ⟨l, _, _, h3⟩ := mem_pairs.1 hq
          exact hk q.1 (List.mem_of_getElem? h3) p.1 (hF p hp).1
    | @pop gen pend best rest flag hp hlen hs hle hf =>
      have hm' : Monotone (R ++ (best.map fun p => ((p.1, some p.2, flag p) : Shown α K)).map fun o => o.1) ops outs := hm
      have := ih hm' (F := F ++ best.filter flag) (fun p hp' => ?_)
      · refine ⟨fun p hp' => this.1 p (List.mem_append_left _ hp'), ?_⟩
        intro o ho hfl
        rw [List.flatten_cons] at ho
        rcases List.mem_append.1 ho with ho | ho
        · obtain ⟨p, hp', rfl⟩ := List.mem_map.1 ho
          exact ⟨p.2, rfl, this.1 p (List.mem_append_right _ (List.mem_filter.2 ⟨hp', hfl⟩))⟩
        · exact this.2 o ho hfl
      · rcases List.mem_append.1 hp' with hp' | hp'
        · exact ⟨List.mem_append_left _ (hF p hp').1, (hF p hp').2⟩
        · obtain ⟨h1, h2⟩ := List.mem_filter.1 hp'
          refine ⟨List.mem_append_right _ ?_, (hf p h1).1 h2⟩
          rw [List.map_map]
          exact List.mem_map.2 ⟨p, h1, rfl⟩

/-- **Once up to date, final.**  If the keys of a batch are never below a key returned before (best-first search with
non-negative costs), a key shown as up to date is the least key its state ever gets, and no state is shown as up to date
twice. -/
theorem trace_monotone {n : Nat} {s' : S α K} {ops : List (SearchSpec.Op α K)} {outs : List (List (Shown α K))}
    (h : Trace n ⟨[], []⟩ ops outs s') (hm : Monotone [] ops outs) :
    (∀ o ∈ outs.flatten, o.2.2 = true → ∃ x, o.2.1 = some x ∧ Least s'.gen (o.1, x)) ∧
    ((outs.flatten.filter fun o => o.2.2).map fun o => o.2.1).Nodup := by
  have hfin := (trace_final h hm (F := []) (by simp)).2
  refine ⟨hfin, ?_⟩
  obtain ⟨best, he, hE⟩ := trace_entries h (P := []) ⟨by simp, by simp, by simp⟩
  rw [List.nil_append] at hE
  have hpw := pairwise_of_map he (List.pairwise_append.1 hE.apart).1
  have hgen : ∀ o ∈ outs.flatten, ∀ x, o.2.1 = some x → (o.1, x) ∈ s'.gen := by
    intro o ho x hx
    have hmem : (o.1, o.2.1) ∈ best.map fun p => (p.1, some p.2) := by
      rw [← he]; exact List.mem_map.2 ⟨o, ho, rfl⟩
    obtain ⟨p, hp, ep⟩ := List.mem_map.1 hmem
    rw [hx] at ep
    have e1 := (Prod.mk.inj ep).1
    have e2 := Option.some.inj (Prod.mk.inj ep).2
    rw [← e1, ← e2]
    exact hE.sub p (List.mem_append_left _ hp)
  rw [List.Nodup, List.pairwise_map]
  refine List.Pairwise.imp_of_mem ?_ (hpw.filter _)
  intro a b ha hb hab e
  obtain ⟨ha1, ha2⟩ := List.mem_filter.1 ha
  obtain ⟨hb1, hb2⟩ := List.mem_filter.1 hb
  obtain ⟨x, ex, hx⟩ := hfin a ha1 ha2
  obtain ⟨y, ey, hy⟩ := hfin b hb1 hb2
  have exy : x = y := by rw [ex, ey] at e; exact Option.some.inj e
  subst exy
  exact hab e ⟨hx _ (hgen b hb1 x ey) rfl, hy _ (hgen a ha1 x ex) rfl⟩

end

end SearchCostSpec

namespace SearchCost

open SearchCostSpec HashTable Bgpq BgpqSpec Dedupe DedupeSpec
open Search (Exact lookup_stored size_le_slots expand_stored pop_core mem_fresh fresh_mem fresh_eq lane_lt items_block)

/-- The table, the cost array (one cost per slot) and the queue. -/
structure St (α : Type u) (K : Type v) where
  table : Table α
  costs : List K
  queue : Heap K Nat

variable {α : Type u} [DecidableEq α] {K : Type v} [KeyInf K]

/-- `better = unique_mask & (keys < costs[idx])`. -/
def better (r : PResult α) (costs : List K) (n : Nat) (keys : List K) : List Bool :=
  (List.range n).map fun l => r.unique.getD l false &&
    !KeyCmp.le (costs.getD (r.idx.getD l 0) KeyPad.inf) (keys.getD l KeyPad.inf)

/-- The block given to the queue: `BGPQ.insert(queue, jnp.where(better, keys, jnp.inf), idx)`. -/
def block (b : List Bool) (idx : List Nat) (n : Nat) (keys : List K) : List (K × Nat) :=
  (List.range n).map fun l => (if b.getD l false then keys.getD l KeyPad.inf else KeyPad.inf, idx.getD l 0)

/-- One step of the user's program: `parallel_insert` (hashtable/table.py:103-121), `xnp.update_on_condition` on the cost array
(core/xtructure_numpy/array_ops.py:13-86; `ord`: the order in which its scatter applies the updates), `BGPQ.insert` and
`BGPQ.delete_mins` (bgpq.py:163-188), `table[idx]` (hashtable/table.py:123-124).  A `pop` shows, for the lanes with a
finite key, the key, `table[idx]` and `key <= costs[idx]`. -/
def step (H : Hasher α) (s : St α K) : SearchSpec.Op α K → List Nat → Option (St α K × List (Shown α K))
  | .expand be mode xs filled keys, ord =>
    let r := parallelInsert be mode H s.table xs filled (some keys)
    let b := better r s.costs xs.length keys
    (Update.update s.costs (r.idx.map Int.ofNat) b keys ord).map fun costs =>
      (⟨r.table, costs, Bgpq.insert s.queue (block b r.idx xs.length keys)⟩, [])
  | .pop, _ => (deleteMins s.queue).map fun (h, mins) =>
    (⟨s.table, s.costs, h⟩, (mins.filter fun p => KeyPad.isFin p.1).map fun p =>
      (p.1, getitem s.table p.2, KeyCmp.le p.1 (s.costs.getD p.2 KeyPad.inf)))

/-- A history; every operation with the order of its scatter. -/
def run (H : Hasher α) (s : St α K) : List (SearchSpec.Op α K × List Nat) → Option (St α K × List (List (Shown α K)))
  | [] => some (s, [])
  | (op, ord) :: ops => (step H s op ord).bind fun (s1, o) => (run H s1 ops).map fun (s2, os) => (s2, o :: os)

/-- The start: an empty table, costs `jnp.full(slots, inf)`, an empty queue. -/
def init (d : α) (capacity bs mult : Nat) (mp : Option Nat) (total batch : Nat) : St α K :=
  ⟨HashTable.build d capacity bs mult mp, List.replicate (internalCap capacity bs mult * bs) KeyPad.inf, Bgpq.build total batch 0⟩

/-- The search and what it knows; `m` bounds the number of open pairs. -/
structure Sim (H : Hasher α) (total batch m : Nat) (s : St α K) (a : S α K) : Prop where
  tab : HashTable.Reachable K H s.table
  que : Bgpq.Reachable total batch 0 s.queue
  gen : ∀ x, (∃ q ∈ a.gen, q.2 = x) ↔ ∃ i, Stored s.table x i
  fin : ∀ q ∈ a.gen, KeyPad.isFin q.1 = true
  len : s.costs.length = s.table.cap * s.table.bs
  cost : ∀ x i, Stored s.table x i → ∃ q ∈ a.gen, q.2 = x ∧ s.costs[i]? = some q.1 ∧ Least a.gen q
  empty : ∀ i, i < s.table.cap * s.table.bs → ¬ Occupied s.table i → s.costs[i]? = some KeyPad.inf
  sub : ∀ p ∈ a.pend, p ∈ a.gen
  few : a.pend.length ≤ m
  cont : (contents s.queue).Perm (a.pend.map fun p => (p.1, (lookup H s.table p.2).1))

variable {H : Hasher α} {total batch m : Nat}

omit [DecidableEq α] in
theorem block_eq (r : PResult α) (b : List Bool) (n : Nat) (keys : List K) :
    block b r.idx n keys = Search.block { r with inserted := b } n keys := rfl

omit [DecidableEq α] in
theorem better_iff {r : PResult α} {costs : List K} {n : Nat} {keys : List K} {l : Nat} :
    (better r costs n keys)[l]? = some true ↔ l < n ∧ r.unique[l]? = some true ∧
      KeyCmp.le (costs.getD (r.idx.getD l 0) KeyPad.inf) (keys.getD l KeyPad.inf) = false := by
  unfold better
  rw [List.getElem?_map]
  by_cases hl : l < n
  · rw [List.getElem?_range hl]
    simp only [Option.map_some, Option.some.injEq, Bool.and_eq_true, Bool.not_eq_true', filled_iff, hl, true_and]
  · rw [List.getElem?_eq_none (by rw [List.length_range]; omega)]
    simp [hl]

theorem fin_not {k : K} (h : KeyPad.isFin k = true) : KeyCmp.le KeyPad.inf k = false := by
  rw [KeyInf.isFin_eq] at h; simpa using h

theorem idx_length (be : Backend) (mode : Mode) (T : Table α) (xs : List α) (filled : List Bool) (key : Option (List K)) :
    (parallelInsert be mode H T xs filled key).idx.length = xs.length := by
  simp [parallelInsert, parallelInsertWith, SortGroup.tab]

theorem sim_expand {s : St α K} {a : S α K} (h : Sim H total batch m s a) (ht : 0 < total) (hb : 0 < batch)
    (hcap : (Bgpq.build total batch 0 : Heap K Nat).maxSize + batch ≤ 2 ^ 32)
    (hq : m + batch < (Bgpq.build total batch 0 : Heap K Nat).maxSize + batch)
    (be : Backend) (mode : Mode) (xs : List α) (filled : List Bool) (keys : List K) (ord : List Nat)
    (hord : ord.Perm (List.range batch))
    (hw : Search.WellFormed batch (.expand be mode xs filled keys : SearchSpec.Op α K))
    (he : Exact H s.table batch (.expand be mode xs filled keys : SearchSpec.Op α K))
    (hroom : s.table.size + batch ≤ s.table.cap * s.table.bs) :
    ∃ (s' : St α K) (pushed : List (K × α)), step H s (.expand be mode xs filled keys) ord = some (s', []) ∧
      s'.table = (parallelInsert be mode H s.table xs filled (some keys)).table ∧
      (pushed.map Prod.snd).Nodup ∧ (∀ p ∈ pushed, Improves a.gen (pairs xs filled keys) p) ∧
      (∀ p, Improves a.gen (pairs xs filled keys) p → p.2 ∈ pushed.map Prod.snd) ∧
      Sim H total batch (m + batch) s' ⟨a.gen ++ pairs xs filled keys, a.pend ++ pushed⟩ := by
  obtain ⟨hxl, hkl, hkf⟩ := hw
  have hr := h.tab
  have hr' : HashTable.Reachable K H (parallelInsert be mode H s.table xs filled (some keys)).table :=
    hr.run (.parallelInsert be mode xs filled (some keys))
  obtain ⟨u1, u2, _⟩ := parallel_insert_union hr be mode xs filled (some keys)
  obtain ⟨hun, hst⟩ := expand_stored hr be mode xs filled keys hxl he hroom
  have hidx := fun (l : Nat) (x : α) (hx : xs[l]? = some x) (hf : filled[l]? = some true) =>
    parallel_insert_index_partial hr be xs filled (some keys) he.1 l x hx hf (hst l x hx hf).1
  have hil := idx_length (H := H) be mode s.table xs filled (some keys)
  have hstable := fun (x : α) (i : Nat) (hs : Stored s.table x i) =>
    (indices_stable hr hs [(.parallelInsert be mode xs filled (some keys) : HashTable.Op α K)])
  obtain ⟨N, hext⟩ := run_ext hr.inv (.parallelInsert be mode xs filled (some keys) : HashTable.Op α K)
  have hc := hext.cap_eq
  have hbs := hext.bs_eq
  simp only [HashTable.exec, List.foldl_cons, List.foldl_nil, HashTable.run] at *
  generalize hR : parallelInsert be mode H s.table xs filled (some keys) = r at *
  have hslot : r.table.cap * r.table.bs = s.table.cap * s.table.bs := by rw [hc, hbs]
  -- keys of lanes
  have hkey : ∀ l, l < xs.length → keys[l]? = some (keys.getD l KeyPad.inf) := by
    intro l hl
    rw [List.getD_eq_getElem?_getD, List.getElem?_eq_getElem (by omega)]; rfl
  have hkfin : ∀ l, l < xs.length → KeyPad.isFin (keys.getD l KeyPad.inf) = true :=
    fun l hl => hkf _ (List.mem_of_getElem? (hkey l hl))
  -- the cost stored before the call at the index a state has after it
  have hold : ∀ x i, Stored r.table x i →
      (∃ q ∈ a.gen, q.2 = x ∧ s.costs[i]? = some q.1 ∧ Least a.gen q) ∨
      ((∀ q ∈ a.gen, q.2 ≠ x) ∧ s.costs[i]? = some KeyPad.inf) := by
    intro x i hs
    by_cases hx : ∃ j, Stored s.table x j
    · obtain ⟨j, hj⟩ := hx
      have e := stored_unique hr'.inv (hstable x j hj).1 hs
      subst e
      exact Or.inl (h.cost x j hj)
    · right
      refine ⟨fun q hq e => hx ((h.gen x).1 ⟨q, hq, e⟩), h.empty i (by rw [← hslot]; exact hs.1.1) ?_⟩
      intro ho
      obtain ⟨y, hy⟩ := occupied_stored hr.inv ho
      have := (hstable y i hy).2.1
      rw [hs.2] at this
      cases this
      exact hx ⟨i, hy⟩
  -- a lane that is better
  have hbet : ∀ l : Nat, (better r s.costs xs.length keys)[l]? = some true → ∃ x, xs[l]? = some x ∧ filled[l]? = some true ∧
      r.unique[l]? = some true ∧ Stored r.table x (r.idx.getD l 0) ∧
      Improves a.gen (pairs xs filled keys) (keys.getD l KeyPad.inf, x) := by
    intro l hl
    obtain ⟨h1, h2, h3⟩ := better_iff.1 hl
    obtain ⟨hf, hbest⟩ := (hun l h1).1 h2
    have hx : xs[l]? = some xs[l] := List.getElem?_eq_getElem h1
    have hs := hidx l _ hx hf
    refine ⟨xs[l], hx, hf, h2, hs, mem_pairs.2 ⟨l, hx, hf, hkey l h1⟩, ?_, ?_⟩
    · intro q hq e
      obtain ⟨l', hx', hf', hk'⟩ := mem_pairs.1 hq
      have := (hbest.2.2.2 l' (List.getElem?_eq_some_iff.1 hx').1 hf' (by rw [hx', hx, e])).1
      simp only [keyOf] at this
      rw [show keys.getD l' KeyPad.inf = q.1 by rw [List.getD_eq_getElem?_getD, hk']; rfl] at this
      exact this
    · intro q hq e
      rcases hold _ _ hs with ⟨q0, hq0, e0, hc0, hl0⟩ | ⟨hno, _⟩
      · rw [List.getD_eq_getElem?_getD, hc0] at h3
        cases hc' : KeyCmp.le q.1 (keys.getD l KeyPad.inf) with
        | false => rfl
        | true =>
          have := KeyLE.trans _ _ _ (hl0 q hq (e.trans e0.symm)) hc'
          rw [Option.getD_some] at h3
          rw [h3] at this; cases this
      · exact absurd e (hno q hq)
  -- a selected lane that is not better
  have hnot : ∀ (l : Nat) (x : α), xs[l]? = some x → r.unique[l]? = some true →
      ¬ (better r s.costs xs.length keys)[l]? = some true →
      ∃ q ∈ a.gen, q.2 = x ∧ s.costs[r.idx.getD l 0]? = some q.1 ∧ Least a.gen q ∧ KeyCmp.le q.1 (keys.getD l KeyPad.inf) = true := by
    intro l x hx hu hnb
    have hlt := (List.getElem?_eq_some_iff.1 hx).1
    have hf := ((hun l hlt).1 hu).1
    have hs := hidx l x hx hf
    have hle : KeyCmp.le (s.costs.getD (r.idx.getD l 0) KeyPad.inf) (keys.getD l KeyPad.inf) = true := by
      cases hc' : KeyCmp.le (s.costs.getD (r.idx.getD l 0) KeyPad.inf) (keys.getD l KeyPad.inf) with
      | true => rfl
      | false => exact absurd (better_iff.2 ⟨hlt, hu, hc'⟩) hnb
    rcases hold x _ hs with ⟨q, hq, e, hcq, hl⟩ | ⟨_, hinf⟩
    · rw [List.getD_eq_getElem?_getD, hcq] at hle
      exact ⟨q, hq, e, hcq, hl, hle⟩
    · rw [List.getD_eq_getElem?_getD, hinf] at hle
      have := fin_not (hkfin l hlt)
      rw [Option.getD_some] at hle
      rw [hle] at this; cases this
  generalize hB : better r s.costs xs.length keys = b at *
  have hblen : b.length = xs.length := by rw [← hB]; simp [better]
  obtain ⟨costs, hup, hcl, hcost⟩ := Update.update_first_true_wins s.costs (indices := r.idx.map Int.ofNat) (cond := b)
    (values := keys) (ord := ord) (by rw [List.length_map, hil, hblen]) (by omega) (by rw [hblen, hxl]; exact hord)
  -- which lanes write to a slot
  have hhit : ∀ k j, Update.FirstHit (r.idx.map Int.ofNat) b j k → b[k]? = some true ∧ r.idx.getD k 0 = j := by
    intro k j hk
    obtain ⟨⟨h1, h2⟩, _⟩ := hk
    refine ⟨h1, ?_⟩
    rw [List.getElem?_map] at h2
    rw [List.getD_eq_getElem?_getD]
    cases hi : r.idx[k]? with
    | none => rw [hi] at h2; cases h2
    | some v =>
      rw [hi] at h2
      simp only [Option.map_some, Option.some.injEq] at h2
      show v = j
      exact Int.ofNat.inj h2
  have hdist : ∀ l l' : Nat, b[l]? = some true → b[l']? = some true → r.idx.getD l 0 = r.idx.getD l' 0 → l = l' := by
    intro l l' h1 h2 e
    obtain ⟨x, hx, _, hu, hs, _⟩ := hbet l h1
    obtain ⟨x', hx', _, hu', hs', _⟩ := hbet l' h2
    rw [e] at hs
    have : x = x' := by
      have := hs.2; rw [hs'.2] at this; exact (Option.some.inj this).symm
    subst this
    have hsel := dedupe_sel mode H xs filled (some keys)
    have hd : (dedupe mode H.toEnc xs filled (some keys)).1 = r.unique := by rw [← hR]; rfl
    exact hsel.distinct l l' x (by rw [hd]; exact filled_iff.2 hu) (by rw [hd]; exact filled_iff.2 hu') hx hx'
  have hwrite : ∀ l : Nat, b[l]? = some true → r.idx.getD l 0 < s.table.cap * s.table.bs →
      costs[r.idx.getD l 0]? = some (keys.getD l KeyPad.inf) := by
    intro l hl hlt
    have hll : l < xs.length := by rw [← hblen]; exact (List.getElem?_eq_some_iff.1 hl).1
    rw [← hkey l hll]
    refine (hcost _ (by rw [h.len]; exact hlt)).1 l ⟨⟨hl, ?_⟩, ?_⟩
    · rw [List.getElem?_map, List.getD_eq_getElem?_getD, List.getElem?_eq_getElem (by omega)]; rfl
    · rintro k hk ⟨h1, h2⟩
      have e : r.idx.getD k 0 = r.idx.getD l 0 := by
        rw [List.getElem?_map] at h2
        cases hi : r.idx[k]? with
        | none => rw [hi] at h2; cases h2
        | some v =>
          rw [hi] at h2
          simp only [Option.map_some, Option.some.injEq] at h2
          rw [List.getD_eq_getElem?_getD, hi]
          exact Int.ofNat.inj h2
      have := hdist k l h1 hl e
      omega
  have hkeep : ∀ j, j < s.table.cap * s.table.bs → (∀ l : Nat, b[l]? = some true → r.idx.getD l 0 ≠ j) → costs[j]? = s.costs[j]? := by
    intro j hj hno
    refine (hcost j (by rw [h.len]; exact hj)).2 ?_
    intro k hk
    obtain ⟨h1, h2⟩ := hhit k j hk
    exact hno k h1 h2
  -- the pushed pairs
  have hpm : ∀ p, p ∈ Search.fresh { r with inserted := b } xs keys → ∃ l : Nat, b[l]? = some true ∧ xs[l]? = some p.2 ∧
      p.1 = keys.getD l KeyPad.inf := by
    intro p hp
    obtain ⟨l, _, h2, h3, h4⟩ := mem_fresh hp
    exact ⟨l, h2, h3, h4⟩
  have himp : ∀ p ∈ Search.fresh { r with inserted := b } xs keys, Improves a.gen (pairs xs filled keys) p := by
    intro p hp
    obtain ⟨l, h1, h2, h3⟩ := hpm p hp
    obtain ⟨x, hx, _, _, _, hi⟩ := hbet l h1
    rw [h2] at hx; cases hx
    rw [← h3] at hi
    exact hi
  have hnd : ((Search.fresh { r with inserted := b } xs keys).map Prod.snd).Nodup := by
    have hp : (Search.lanes { r with inserted := b } xs.length).Pairwise fun l l' => xs[l]? ≠ xs[l']? := by
      have hnd : (Search.lanes { r with inserted := b } xs.length).Nodup := List.Pairwise.filter _ List.nodup_range
      refine List.Pairwise.imp_of_mem ?_ hnd
      intro l l' hl hl' hne hxe
      have b1 : b[l]? = some true := (lane_lt hl).2
      have b2 : b[l']? = some true := (lane_lt hl').2
      obtain ⟨x, hx, _, _, hs, _⟩ := hbet l b1
      obtain ⟨x', hx', _, _, hs', _⟩ := hbet l' b2
      have : x = x' := by rw [hx, hx'] at hxe; exact Option.some.inj hxe
      subst this
      exact hne (hdist l l' b1 b2 (stored_unique hr'.inv hs hs'))
    rcases hxs : xs with _ | ⟨d, xs'⟩
    · simp [Search.fresh, Search.lanes]
    · rw [← hxs, fresh_eq _ _ keys d, List.map_map]
      rw [List.Nodup, List.pairwise_map]
      refine List.Pairwise.imp_of_mem ?_ hp
      intro l l' hl hl' hne he'
      apply hne
      have h1 := (lane_lt hl).1
      have h2 := (lane_lt hl').1
      rw [List.getElem?_eq_getElem h1, List.getElem?_eq_getElem h2]
      simp only [Function.comp, List.getD_eq_getElem?_getD, List.getElem?_eq_getElem h1, List.getElem?_eq_getElem h2,
        Option.getD_some] at he'
      rw [he']
  have hall : ∀ p, Improves a.gen (pairs xs filled keys) p →
      p.2 ∈ (Search.fresh { r with inserted := b } xs keys).map Prod.snd := by
    rintro ⟨k, x⟩ ⟨hm, _, hgt⟩
    obtain ⟨l, hx, hf, hk⟩ := mem_pairs.1 hm
    obtain ⟨_, l0, hx0, hu0, hle⟩ := hst l x hx hf
    by_cases hb0 : b[l0]? = some true
    · exact List.mem_map.2 ⟨_, fresh_mem hb0 hx0, rfl⟩
    · exfalso
      obtain ⟨q, hq, e, _, _, hle'⟩ := hnot l0 x hx0 hu0 hb0
      have h1 := hgt q hq e
      rw [show keys.getD l KeyPad.inf = k by rw [List.getD_eq_getElem?_getD, hk]; rfl] at hle
      have h2 := KeyLE.trans _ _ _ hle' hle
      rw [h1] at h2; cases h2
  have hit : items (block b r.idx xs.length keys) =
      (Search.fresh { r with inserted := b } xs keys).map fun p => (p.1, (lookup H r.table p.2).1) := by
    rw [block_eq, items_block (T := r.table) _ hkf (by omega)]
    rcases hxs : xs with _ | ⟨d, xs'⟩
    · simp [Search.fresh, Search.lanes]
    · rw [← hxs, fresh_eq _ _ keys d, List.map_map]
      apply List.map_congr_left
      intro l hl
      have b1 : b[l]? = some true := (lane_lt hl).2
      obtain ⟨x, hx, _, _, hs, _⟩ := hbet l b1
      simp only [Function.comp]
      rw [show xs.getD l d = x by rw [List.getD_eq_getElem?_getD, hx]; rfl, lookup_stored hr' hs]
  have hqlen : (block b r.idx xs.length keys).length = batch := by simp [block, hxl]
  have hflen : (Search.fresh { r with inserted := b } xs keys).length ≤ batch := by
    unfold Search.fresh
    refine Nat.le_trans (List.length_filterMap_le _ _) (Nat.le_trans (List.length_filter_le _ _) ?_)
    rw [List.length_range]; omega
  have hgen' : ∀ x, (∃ q ∈ a.gen ++ pairs xs filled keys, q.2 = x) ↔ ∃ i, Stored r.table x i := by
    intro x
    constructor
    · rintro ⟨q, hq', rfl⟩
      rcases List.mem_append.1 hq' with hq' | hq'
      · obtain ⟨i, hi⟩ := (h.gen q.2).1 ⟨q, hq', rfl⟩
        exact ⟨i, (hstable _ i hi).1⟩
      · obtain ⟨l, hx, hf, _⟩ := mem_pairs.1 hq'
        exact (hst l _ hx hf).1
    · intro hs
      rcases (u1 x).1 hs with h1 | ⟨l, h1, h2⟩
      · obtain ⟨q, hq', e⟩ := (h.gen x).2 h1
        exact ⟨q, List.mem_append_left _ hq', e⟩
      · exact ⟨(keys.getD l KeyPad.inf, x), List.mem_append_right _ (mem_pairs.2 ⟨l, h2, (u2 l h1).1,
          hkey l (List.getElem?_eq_some_iff.1 h2).1⟩), rfl⟩
  refine ⟨⟨r.table, costs, Bgpq.insert s.queue (block b r.idx xs.length keys)⟩, Search.fresh { r with inserted := b } xs keys,
    ?_, rfl, hnd, himp, hall, ?_⟩
  · simp only [step]; rw [hR, hB, hup]; rfl
  · have hmax := (reachable_inv ht hb hcap h.que).2.2
    have hcl' : (contents s.queue).length = a.pend.length := by rw [h.cont.length_eq, List.length_map]
    have hfew := h.few
    have hqc := (bgpq_conserves ht hb hcap h.que).1 (block b r.idx xs.length keys) hqlen (by
      rw [hit, List.length_map, hcl', hmax]
      omega)
    refine ⟨hr', h.que.insert hqlen, hgen', ?_, ?_, ?_, ?_, ?_, ?_, ?_⟩
    · intro q hq'
      rcases List.mem_append.1 hq' with hq' | hq'
      · exact h.fin q hq'
      · obtain ⟨l, _, _, hk⟩ := mem_pairs.1 hq'
        exact hkf _ (List.mem_of_getElem? hk)
    · show costs.length = r.table.cap * r.table.bs
      rw [hcl, h.len, hslot]
    · intro x i hs
      have hs : Stored r.table x i := hs
      have hi : i < s.table.cap * s.table.bs := by rw [← hslot]; exact hs.1.1
      by_cases hwr : ∃ l : Nat, b[l]? = some true ∧ r.idx.getD l 0 = i
      · obtain ⟨l, h1, rfl⟩ := hwr
        obtain ⟨x', hx, hf, _, hs', himp'⟩ := hbet l h1
        have : x' = x := by have := hs'.2; rw [hs.2] at this; exact (Option.some.inj this).symm
        subst this
        refine ⟨(keys.getD l KeyPad.inf, x'), List.mem_append_right _ himp'.1, rfl, hwrite l h1 hi, ?_⟩
        intro q hq' e
        rcases List.mem_append.1 hq' with hq' | hq'
        · exact KeyLE.le_of_not_le (himp'.2.2 q hq' e)
        · exact himp'.2.1 q hq' e
      · have hk := hkeep i hi fun l hl e => hwr ⟨l, hl, e⟩
        -- every selected lane of this state is not better
        have hno : ∀ l : Nat, xs[l]? = some x → filled[l]? = some true → ∃ q ∈ a.gen, q.2 = x ∧ s.costs[i]? = some q.1 ∧
            Least a.gen q ∧ KeyCmp.le q.1 (keys.getD l KeyPad.inf) = true := by
          intro l hx hf
          obtain ⟨_, l0, hx0, hu0, hle⟩ := hst l x hx hf
          have hf0 := ((hun l0 (List.getElem?_eq_some_iff.1 hx0).1).1 hu0).1
          have ei := stored_unique hr'.inv (hidx l0 x hx0 hf0) hs
          obtain ⟨q, hq', e, hcq, hl, hle'⟩ := hnot l0 x hx0 hu0 fun hb' => hwr ⟨l0, hb', ei⟩
          exact ⟨q, hq', e, by rw [← ei]; exact hcq, hl, KeyLE.trans _ _ _ hle' hle⟩
        have hex : ∃ q ∈ a.gen, q.2 = x ∧ s.costs[i]? = some q.1 ∧ Least a.gen q := by
          rcases hold x i hs with h1 | ⟨h1, h2⟩
          · exact h1
          · obtain ⟨q, hq', e⟩ := (hgen' x).2 ⟨i, hs⟩
            rcases List.mem_append.1 hq' with hq' | hq'
            · exact absurd e (h1 q hq')
            · obtain ⟨l, hx, hf, _⟩ := mem_pairs.1 hq'
              obtain ⟨q', h3, h4, _⟩ := hno l (by rw [← e]; exact hx) hf
              exact absurd h4 (h1 q' h3)
        obtain ⟨q, hq', e, hcq, hl⟩ := hex
        refine ⟨q, List.mem_append_left _ hq', e, by show costs[i]? = _; rw [hk]; exact hcq, ?_⟩
        intro q2 hq2 e2
        rcases List.mem_append.1 hq2 with hq2 | hq2
        · exact hl q2 hq2 e2
        · obtain ⟨l, hx, hf, hk2⟩ := mem_pairs.1 hq2
          obtain ⟨q3, h3, e3, hc3, _, hle3⟩ := hno l (by rw [← e, ← e2]; exact hx) hf
          have : q3.1 = q.1 := by rw [hcq] at hc3; exact (Option.some.inj hc3).symm
          rw [this, show keys.getD l KeyPad.inf = q2.1 by rw [List.getD_eq_getElem?_getD, hk2]; rfl] at hle3
          exact hle3
    · intro i hi ho
      have hi : i < s.table.cap * s.table.bs := by rw [← hslot]; exact hi
      have ho : ¬ Occupied r.table i := ho
      show costs[i]? = _
      rw [hkeep i hi]
      · refine h.empty i hi fun ho' => ?_
        obtain ⟨y, hy⟩ := occupied_stored hr.inv ho'
        exact ho (hstable y i hy).1.1
      · rintro l hl rfl
        obtain ⟨x, _, _, _, hs, _⟩ := hbet l hl
        exact ho hs.1
    · intro p hp
      rcases List.mem_append.1 hp with hp | hp
      · exact List.mem_append_left _ (h.sub p hp)
      · exact List.mem_append_right _ (himp p hp).1
    · show (a.pend ++ _).length ≤ m + batch
      rw [List.length_append]; omega
    · show (contents (Bgpq.insert s.queue (block b r.idx xs.length keys))).Perm _
      refine hqc.trans ?_
      rw [hit, List.map_append]
      refine List.Perm.append_right _ (h.cont.trans (List.Perm.of_eq ?_))
      apply List.map_congr_left
      intro p hp
      obtain ⟨i, hs⟩ := (h.gen p.2).1 ⟨p, h.sub p hp, rfl⟩
      rw [lookup_stored hr hs, (hstable p.2 i hs).2.2]

theorem sim_pop {s : St α K} {a : S α K} (h : Sim H total batch m s a) (ht : 0 < total) (hb : 0 < batch)
    (hcap : (Bgpq.build total batch 0 : Heap K Nat).maxSize + batch ≤ 2 ^ 32) (ord : List Nat) :
    ∃ (s' : St α K) (out : List (Shown α K)) (a' : S α K), step H s .pop ord = some (s', out) ∧
      s'.table = s.table ∧ Step batch a .pop out a' ∧ Sim H total batch m s' a' := by
  have hr := h.tab
  have hsub := fun (p : K × α) (hp : p ∈ a.pend) => (h.gen p.2).1 ⟨p, h.sub p hp, rfl⟩
  obtain ⟨q', mins, best, rest, hd, e1, e2, h1, h2, h3, h4⟩ := pop_core hr h.que hsub h.cont ht hb hcap
  let flag : K × α → Bool := fun p => KeyCmp.le p.1 (s.costs.getD (lookup H s.table p.2).1 KeyPad.inf)
  refine ⟨⟨s.table, s.costs, q'⟩, best.map fun p => (p.1, some p.2, flag p), ⟨a.gen, rest⟩, ?_, rfl,
    Step.pop best rest flag h1 h2 h3 h4 ?_, ?_⟩
  · simp only [step, hd, Option.map_some]
    have : (mins.filter fun p => KeyPad.isFin p.1) = items mins := rfl
    rw [this, e1, List.map_map]
    refine congrArg some (Prod.ext rfl ?_)
    apply List.map_congr_left
    intro p hp
    obtain ⟨i, hs⟩ := hsub p (h1.mem_iff.1 (List.mem_append_left _ hp))
    simp only [Function.comp, flag]
    rw [lookup_stored hr hs]
    show (p.1, getitem s.table i, _) = _
    rw [hs.2]
  · intro p hp
    have hp' := h1.mem_iff.1 (List.mem_append_left _ hp)
    obtain ⟨i, hs⟩ := hsub p hp'
    obtain ⟨q, hq, e, hc, hl⟩ := h.cost p.2 i hs
    have : flag p = KeyCmp.le p.1 q.1 := by
      show KeyCmp.le p.1 (s.costs.getD (lookup H s.table p.2).1 KeyPad.inf) = _
      rw [lookup_stored hr hs]
      show KeyCmp.le p.1 (s.costs.getD i KeyPad.inf) = _
      rw [List.getD_eq_getElem?_getD, hc]; rfl
    rw [this]
    constructor
    · intro hle q2 hq2 e'
      exact KeyLE.trans _ _ _ hle (hl q2 hq2 (e'.trans e.symm))
    · intro hle
      exact hle q hq e
  · have hl := h1.length_eq
    rw [List.length_append] at hl
    have := h.few
    refine ⟨hr, h.que.delete hd, h.gen, h.fin, h.len, h.cost, h.empty, ?_, ?_, e2⟩
    · intro p hp
      exact h.sub p (h1.mem_iff.1 (List.mem_append_right _ hp))
    · show rest.length ≤ m
      omega

theorem sim_run (ht : 0 < total) (hb : 0 < batch)
    (hcap : (Bgpq.build total batch 0 : Heap K Nat).maxSize + batch ≤ 2 ^ 32) (ops : List (SearchSpec.Op α K × List Nat)) :
    ∀ {m : Nat} {s : St α K} {a : S α K}, Sim H total batch m s a →
    m + ops.length * batch < (Bgpq.build total batch 0 : Heap K Nat).maxSize + batch →
    (∀ o ∈ ops, Search.WellFormed batch o.1 ∧ o.2.Perm (List.range batch) ∧ Exact H s.table batch o.1) →
    s.table.size + ops.length * batch ≤ s.table.cap * s.table.bs →
    ∃ s' outs a', run H s ops = some (s', outs) ∧ Trace batch a (ops.map Prod.fst) outs a' ∧
      ∃ m', Sim H total batch m' s' a' := by
  induction ops with
  | nil => intro m s a h _ _ _; exact ⟨s, [], a, rfl, Trace.nil a, m, h⟩
  | cons o ops ih =>
    intro m s a h hq hw hroom
    obtain ⟨op, ord⟩ := o
    have hmul : ((op, ord) :: ops).length * batch = ops.length * batch + batch := by rw [List.length_cons, Nat.succ_mul]
    rw [hmul] at hq hroom
    obtain ⟨w1, w2, w3⟩ := hw (op, ord) (by simp)
    have hstep : ∃ s1 out a1 m1, step H s op ord = some (s1, out) ∧ Step batch a op out a1 ∧ Sim H total batch m1 s1 a1 ∧
        m1 ≤ m + batch ∧ s1.table.cap = s.table.cap ∧ s1.table.bs = s.table.bs ∧ s1.table.maxProbes = s.table.maxProbes ∧
        s1.table.size ≤ s.table.size + batch := by
      cases op with
      | expand be mode xs filled keys =>
        by_cases hq0 : m + batch < (Bgpq.build total batch 0 : Heap K Nat).maxSize + batch
        · obtain ⟨s1, pushed, e1, e2, e3, e4, e5, e6⟩ := sim_expand h ht hb hcap hq0 be mode xs filled keys ord w2 w1 w3 (by omega)
          obtain ⟨N, hext⟩ := run_ext h.tab.inv (.parallelInsert be mode xs filled (some keys) : HashTable.Op α K)
          have e : s1.table = HashTable.run H s.table (.parallelInsert be mode xs filled (some keys) : HashTable.Op α K) := e2
          refine ⟨s1, [], _, m + batch, e1, Step.expand pushed e3 e4 e5, e6, Nat.le_refl _, by rw [e, hext.cap_eq],
            by rw [e, hext.bs_eq], by rw [e, hext.mp_eq], ?_⟩
          rw [e, run_size h.tab.inv]
          have : insertedCount H s.table (.parallelInsert be mode xs filled (some keys) : HashTable.Op α K) ≤ batch := by
            simp only [insertedCount]
            refine Nat.le_trans List.countP_le_length ?_
            rw [Search.inserted_length be mode h.tab xs filled (some keys), w1.1]; exact Nat.le_refl _
          omega
        · omega
      | pop =>
        obtain ⟨s1, out, a1, e1, e2, e3, e4⟩ := sim_pop h ht hb hcap ord
        exact ⟨s1, out, a1, m, e1, e3, e4, by omega, by rw [e2], by rw [e2], by rw [e2], by rw [e2]; omega⟩
    obtain ⟨s1, out, a1, m1, h1, h2, h3, c0, c1, c2, c3, c4⟩ := hstep
    obtain ⟨s2, outs, a2, i1, i2, i3⟩ := ih h3 (by omega)
      (fun o ho => ⟨(hw o (by simp [ho])).1, (hw o (by simp [ho])).2.1, (Search.exact_congr c1 c2 c3 o.1).2 (hw o (by simp [ho])).2.2⟩)
      (by rw [c1, c2]; omega)
    refine ⟨s2, out :: outs, a2, ?_, Trace.cons h2 i2, i3⟩
    simp [run, h1, i1]

theorem sim_init (d : α) {capacity bs mult : Nat} {mp : Option Nat} (hv : ValidParams capacity bs mult mp) :
    Sim H total batch 0 (init d capacity bs mult mp total batch : St α K) ⟨[], []⟩ := by
  have h0 := Search.sim_init (H := H) (K := K) (total := total) (batch := batch) d hv
  have hno : ∀ x i, ¬ Stored (HashTable.build d capacity bs mult mp) x i := by
    intro x i hs
    have := (h0.seen x).2 ⟨i, hs⟩
    cases this
  refine ⟨h0.tab, h0.que, ?_, by simp, ?_, ?_, ?_, by simp, Nat.le_refl _, h0.cont⟩
  · intro x
    simp only [List.not_mem_nil, false_and, exists_false, false_iff]
    rintro ⟨i, hs⟩
    exact hno x i hs
  · show (List.replicate (internalCap capacity bs mult * bs) KeyPad.inf).length = internalCap capacity bs mult * bs
    rw [List.length_replicate]
  · intro x i hs
    exact absurd hs (hno x i)
  · intro i hi _
    show (List.replicate (internalCap capacity bs mult * bs) KeyPad.inf)[i]? = _
    rw [List.getElem?_replicate, if_pos (show i < internalCap capacity bs mult * bs from hi)]

/-- The hypotheses of C96: valid sizes, batches of the queue's size with finite keys, exact de-duplication and a back-end that
places everything that fits, a slot and a place in the queue for every lane of the history. -/
structure Fits (H : Hasher α) (d : α) (capacity bs mult : Nat) (mp : Option Nat) (total batch : Nat)
    (ops : List (SearchSpec.Op α K × List Nat)) : Prop where
  valid : ValidParams capacity bs mult mp
  total_pos : 0 < total
  batch_pos : 0 < batch
  cap : (Bgpq.build total batch 0 : Heap K Nat).maxSize + batch ≤ 2 ^ 32
  queue : ops.length * batch < (Bgpq.build total batch 0 : Heap K Nat).maxSize + batch
  slots : ops.length * batch ≤ internalCap capacity bs mult * bs
  each : ∀ o ∈ ops, Search.WellFormed batch o.1 ∧ o.2.Perm (List.range batch) ∧ Exact H (HashTable.build d capacity bs mult mp) batch o.1

/-- **C96.**  All calls succeed and what the user sees is a run of the specification; the table holds exactly the generated
states, and the cost stored at a state's index is the least key ever generated for it. -/
theorem search_reopen_refines {d : α} {capacity bs mult : Nat} {mp : Option Nat} {ops : List (SearchSpec.Op α K × List Nat)}
    (hf : Fits H d capacity bs mult mp total batch ops) :
    ∃ s outs a, run H (init d capacity bs mult mp total batch : St α K) ops = some (s, outs) ∧
      Trace batch ⟨[], []⟩ (ops.map Prod.fst) outs a ∧ a.gen = generated (ops.map Prod.fst) ∧
      (∀ x, (∃ q ∈ a.gen, q.2 = x) ↔ ∃ i, Stored s.table x i) ∧
      (∀ x i, Stored s.table x i → ∃ k, s.costs[i]? = some k ∧ (k, x) ∈ a.gen ∧ Least a.gen (k, x)) ∧
      s.queue.size = a.pend.length := by
  obtain ⟨s, outs, a, h1, h2, m', h3⟩ := sim_run hf.total_pos hf.batch_pos hf.cap ops (sim_init (H := H) d hf.valid)
    (by have := hf.queue; omega) hf.each (by
      show 0 + _ ≤ internalCap capacity bs mult * bs
      have := hf.slots
      omega)
  refine ⟨s, outs, a, h1, h2, by rw [trace_generated h2]; rfl, h3.gen, ?_, ?_⟩
  · intro x i hs
    obtain ⟨q, hq, rfl, hc, hl⟩ := h3.cost x i hs
    exact ⟨q.1, hc, hq, hl⟩
  · obtain ⟨i1, i2, i3⟩ := reachable_inv hf.total_pos hf.batch_pos hf.cap h3.que
    rw [size_eq i1 (by rw [i2, i3]; exact hf.cap)]
    have := h3.cont.length_eq
    rw [List.length_map] at this
    exact this

/-- **C96, nothing is lost.**  When the queue is empty at the end, every state generated anywhere in the history has been returned,
shown as up to date, with the least of all its keys; no two returned entries of one state have equal keys. -/
theorem search_reopen_best {d : α} {capacity bs mult : Nat} {mp : Option Nat} {ops : List (SearchSpec.Op α K × List Nat)}
    (hf : Fits H d capacity bs mult mp total batch ops) :
    ∃ s outs, run H (init d capacity bs mult mp total batch : St α K) ops = some (s, outs) ∧
      (outs.flatten.Pairwise fun o o' => o.2.1 = o'.2.1 → ¬ (KeyCmp.le o.1 o'.1 = true ∧ KeyCmp.le o'.1 o.1 = true)) ∧
      (s.queue.size = 0 → ∀ q ∈ generated (ops.map Prod.fst), ∃ k, (k, some q.2, true) ∈ outs.flatten ∧
        (k, q.2) ∈ generated (ops.map Prod.fst) ∧ Least (generated (ops.map Prod.fst)) (k, q.2)) := by
  obtain ⟨s, outs, a, h1, h2, h3, _, _, h6⟩ := search_reopen_refines hf
  obtain ⟨t1, t2⟩ := trace_best h2
  refine ⟨s, outs, h1, t1, ?_⟩
  intro h0 q hq
  rw [← h3] at hq ⊢
  obtain ⟨k, hl, hg, hor⟩ := t2 q hq
  rcases hor with hp | ho
  · have : a.pend = [] := List.eq_nil_of_length_eq_zero (by omega)
    rw [this] at hp; cases hp
  · exact ⟨k, ho, hg, hl⟩

/-- **C96, once up to date, final.**  If every key of a batch is at least every key returned before it, a key shown as up to date is
the least key its state gets in the whole history, and no state is shown as up to date twice. -/
theorem search_reopen_monotone {d : α} {capacity bs mult : Nat} {mp : Option Nat} {ops : List (SearchSpec.Op α K × List Nat)}
    (hf : Fits H d capacity bs mult mp total batch ops) :
    ∃ s outs, run H (init d capacity bs mult mp total batch : St α K) ops = some (s, outs) ∧
      (Monotone [] (ops.map Prod.fst) outs →
        (∀ o ∈ outs.flatten, o.2.2 = true → ∃ x, o.2.1 = some x ∧ Least (generated (ops.map Prod.fst)) (o.1, x)) ∧
        ((outs.flatten.filter fun o => o.2.2).map fun o => o.2.1).Nodup) := by
  obtain ⟨s, outs, a, h1, h2, h3, _⟩ := search_reopen_refines hf
  refine ⟨s, outs, h1, fun hm => ?_⟩
  rw [← h3]
  exact trace_monotone h2 hm

/-- Non-vacuity: 9 is generated with keys 6, then 4 (pushed again), then 5 (not pushed); its old entry comes back as out of date.
All hypotheses hold. -/
example :
    let ops : List (SearchSpec.Op Nat (Option Nat) × List Nat) := [(.expand .xla .safe [5, 9] [true, true] [some 3, some 6], [1, 0]),
      (.expand .xla .exact [9, 9] [true, true] [some 7, some 4], [0, 1]), (.pop, [0, 1]),
      (.expand (.pallas 8) .safe [9, 13] [true, true] [some 5, some 8], [0, 1]), (.pop, [0, 1])]
    Fits exHasher 0 8 2 2 (some 200) 16 2 ops ∧
    (run exHasher (init 0 8 2 2 (some 200) 16 2 : St Nat (Option Nat)) ops).map Prod.snd =
      some [[], [], [(some 3, some 5, true), (some 4, some 9, true)], [], [(some 6, some 9, false), (some 8, some 13, true)]] ∧
    Monotone [] (ops.map Prod.fst) [[], [], [(some 3, some 5, true), (some 4, some 9, true)], [],
      [(some 6, some 9, false), (some 8, some 13, true)]] := by
  intro ops
  refine ⟨⟨⟨by decide, by decide, by decide +kernel, by intro m h; cases h; decide +kernel⟩, by decide, by decide, by decide +kernel,
    by decide +kernel, by decide +kernel, ?_⟩, by decide +kernel, ?_⟩
  · intro op ho
    simp only [ops, List.mem_cons, List.not_mem_nil, or_false] at ho
    have hg : ∀ (a b : Nat), AllFilled [a, b] [true, true] := by
      intro a b i hi
      simp only [List.length_cons, List.length_nil] at hi
      match i, hi with
      | 0, _ => rfl
      | 1, _ => rfl
    rcases ho with rfl | rfl | rfl | rfl | rfl <;> refine ⟨by simp [Search.WellFormed, KeyPad.isFin], by decide, ?_⟩ <;>
      first
        | trivial
        | exact ⟨Or.inl (hg _ _), Or.inr ⟨rfl, by decide +kernel⟩⟩
        | exact ⟨Or.inl (hg _ _), Or.inl ⟨by decide +kernel, by decide +kernel⟩⟩
  · simp [ops, Monotone, KeyCmp.le]

end SearchCost
