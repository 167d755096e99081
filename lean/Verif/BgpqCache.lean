import Verif.BgpqCacheModel
import Verif.BgpqConfig

/-!
# C99: changing the settings while the program runs does not change what queues do
-/

namespace Bgpq

open MergeModel BgpqSpec

section Spec

variable {K : Type u} [KeyPad K] {V : Type v}

/-- Specification: queues that merge by sorting (`Bgpq.step`, the queue of C01-C20), with the calls marked by `vs` raising and doing nothing. -/
def sortQueues : (Nat → Heap K V) → List (Nat × Op K V) → List (Option CfgErr) → List (Outcome K V)
  | hs, _ :: cs, some e :: vs => .raised e :: sortQueues hs cs vs
  | hs, (q, op) :: cs, none :: vs =>
    match step (hs q) op with
    | none => [.hangs]
    | some x => .returned x.2 :: sortQueues (update hs q x.1) cs vs
  | _, _, _ => []

end Spec

variable {K : Type u} [KeyTop K] {E : Type v}

/-- Every kept trace was accepted under some environment. -/
structure Traces.Ok (c : Setup K E) (t : Traces) : Prop where
  split : ∀ n m s, t.split n m = some s → ∃ env, (c.at env).resolve .sortsplit n m = .ok s
  buffer : ∀ q s, t.buffer q = some s → ∃ env, (c.at env).resolve .buffer q.2 (q.2 - 1) = .ok s
  insert : ∀ q p, t.insert q = some p → (∃ env, (c.at env).resolve .sortsplit q.2 q.2 = .ok p.1) ∧ ∃ env, (c.at env).resolve .buffer q.2 (q.2 - 1) = .ok p.2
  delete : ∀ q p, t.delete q = some p → (∃ env, (c.at env).resolve .sortsplit q.2 (q.2 - 1) = .ok p.1) ∧ ∃ env, (c.at env).resolve .sortsplit q.2 q.2 = .ok p.2

theorem Traces.empty_ok (c : Setup K E) : Traces.empty.Ok c :=
  ⟨fun _ _ _ h => (by cases h), fun _ _ h => (by cases h), fun _ _ h => (by cases h), fun _ _ h => (by cases h)⟩

theorem traceSplit_ok {c : Setup K E} {t : Traces} (ht : t.Ok c) (env : Env) (n m : Nat) :
    (traceSplit (c.at env) t n m).1.Ok c ∧ ∀ s, (traceSplit (c.at env) t n m).2 = .ok s → ∃ env', (c.at env').resolve .sortsplit n m = .ok s := by
  unfold traceSplit
  cases h : t.split n m with
  | some s => exact ⟨ht, fun s' h' => by cases h'; exact ht.split n m s h⟩
  | none =>
    cases hr : (c.at env).resolve .sortsplit n m with
    | error e => exact ⟨ht, fun s' h' => by cases h'⟩
    | ok s =>
      refine ⟨⟨?_, ht.buffer, ht.insert, ht.delete⟩, fun s' h' => by cases h'; exact ⟨env, hr⟩⟩
      intro n' m' s' hs'
      simp only [update] at hs'
      by_cases hn : n' = n
      · rw [if_pos hn] at hs'
        unfold update at hs'
        by_cases hm : m' = m
        · rw [if_pos hm] at hs'
          cases hs'
          subst hn hm
          exact ⟨env, hr⟩
        · rw [if_neg hm] at hs'
          subst hn
          exact ht.split _ _ _ hs'
      · rw [if_neg hn] at hs'
        exact ht.split _ _ _ hs'

theorem traceBuffer_ok {c : Setup K E} {t : Traces} (ht : t.Ok c) (env : Env) (q : QShape) :
    (traceBuffer (c.at env) t q).1.Ok c ∧ ∀ s, (traceBuffer (c.at env) t q).2 = .ok s → ∃ env', (c.at env').resolve .buffer q.2 (q.2 - 1) = .ok s := by
  unfold traceBuffer
  cases h : t.buffer q with
  | some s => exact ⟨ht, fun s' h' => by cases h'; exact ht.buffer q s h⟩
  | none =>
    cases hr : (c.at env).resolve .buffer q.2 (q.2 - 1) with
    | error e => exact ⟨ht, fun s' h' => by cases h'⟩
    | ok s =>
      refine ⟨⟨ht.split, ?_, ht.insert, ht.delete⟩, fun s' h' => by cases h'; exact ⟨env, hr⟩⟩
      intro q' s' hs'
      simp only [update] at hs'
      by_cases hn : q' = q
      · rw [if_pos hn] at hs'
        cases hs'
        subst hn
        exact ⟨env, hr⟩
      · rw [if_neg hn] at hs'
        exact ht.buffer _ _ hs'

/-- A trace (kept or new) uses strategies that were accepted under some environment. -/
def PlanOk (c : Setup K E) (q : QShape) (p : Strat × Strat) : Op K (List (List E)) → Prop
  | .insert _ => (∃ env, (c.at env).resolve .sortsplit q.2 q.2 = .ok p.1) ∧ ∃ env, (c.at env).resolve .buffer q.2 (q.2 - 1) = .ok p.2
  | .deleteMins => (∃ env, (c.at env).resolve .sortsplit q.2 (q.2 - 1) = .ok p.1) ∧ ∃ env, (c.at env).resolve .sortsplit q.2 q.2 = .ok p.2

theorem traceOp_ok {c : Setup K E} {t : Traces} (ht : t.Ok c) (env : Env) (q : QShape) (op : Op K (List (List E))) :
    (traceOp (c.at env) t q op).1.Ok c ∧ ∀ p, (traceOp (c.at env) t q op).2 = .ok p → PlanOk c q p op := by
  cases op with
  | insert block =>
    unfold traceOp
    cases h : t.insert q with
    | some p => exact ⟨ht, fun p' h' => by cases h'; exact ht.insert q p h⟩
    | none =>
      have h1 := traceSplit_ok ht env q.2 q.2
      generalize traceSplit (c.at env) t q.2 q.2 = r1 at h1
      obtain ⟨t1, r1⟩ := r1
      cases r1 with
      | error e => exact ⟨h1.1, fun p h' => by cases h'⟩
      | ok s =>
        have h2 := traceBuffer_ok h1.1 env q
        simp only at h2
        generalize hb : traceBuffer (c.at env) t1 q = r2 at h2
        obtain ⟨t2, r2⟩ := r2
        simp only [hb]
        cases r2 with
        | error e => exact ⟨h2.1, fun p h' => by cases h'⟩
        | ok b =>
          have hp := And.intro (h1.2 s rfl) (h2.2 b rfl)
          refine ⟨⟨h2.1.split, h2.1.buffer, ?_, h2.1.delete⟩, fun p h' => by cases h'; exact hp⟩
          intro q' p' hp'
          simp only [update] at hp'
          by_cases hq : q' = q
          · rw [if_pos hq] at hp'
            cases hp'
            subst hq
            exact hp
          · rw [if_neg hq] at hp'
            exact h2.1.insert _ _ hp'
  | deleteMins =>
    unfold traceOp
    cases h : t.delete q with
    | some p => exact ⟨ht, fun p' h' => by cases h'; exact ht.delete q p h⟩
    | none =>
      have h1 := traceSplit_ok ht env q.2 (q.2 - 1)
      generalize traceSplit (c.at env) t q.2 (q.2 - 1) = r1 at h1
      obtain ⟨t1, r1⟩ := r1
      cases r1 with
      | error e => exact ⟨h1.1, fun p h' => by cases h'⟩
      | ok s =>
        have h2 := traceSplit_ok h1.1 env q.2 q.2
        simp only at h2
        generalize hb : traceSplit (c.at env) t1 q.2 q.2 = r2 at h2
        obtain ⟨t2, r2⟩ := r2
        simp only [hb]
        cases r2 with
        | error e => exact ⟨h2.1, fun p h' => by cases h'⟩
        | ok b =>
          have hp := And.intro (h1.2 s rfl) (h2.2 b rfl)
          refine ⟨⟨h2.1.split, h2.1.buffer, h2.1.insert, ?_⟩, fun p h' => by cases h'; exact hp⟩
          intro q' p' hp'
          simp only [update] at hp'
          by_cases hq : q' = q
          · rw [if_pos hq] at hp'
            cases hp'
            subst hq
            exact hp
          · rw [if_neg hq] at hp'
            exact h2.1.delete _ _ hp'

theorem strat_like_sort (c : Setup K E) (site : Site) (n m : Nat) {env : Env} {s : Strat} (h : (c.at env).resolve site n m = .ok s) :
    MergesLikeSort (s.merge c.minV c.maxV c.zero c.sizes) n m (Fits c.sizes) := by
  intro a b ha hb
  refine strat_merge_eq c.minV c.maxV c.zero (site := site) (py := c.py) (env := (c.at env).env) (dev := c.dev) a b ?_
    (List.pairwise_map.2 ha.sorted) (List.pairwise_map.2 hb.sorted) ha.vals hb.vals
  rw [ha.len, hb.len]
  exact h

/-- Any mix of accepted strategies does what sorting does. -/
theorem exec_eq (c : Setup K E) {q : QShape} {p : Strat × Strat} {h : Heap K (List (List E))} (hg : HGood (Fits c.sizes) h) (hq : h.batchSize = q.2)
    {op : Op K (List (List E))} (hp : PlanOk c q p op) (hf : FitsOp c.sizes h.batchSize op) :
    exec c p h op = step h op ∧ ∀ x, step h op = some x → HGood (Fits c.sizes) x.1 ∧ x.1.batchSize = h.batchSize := by
  cases op with
  | insert block =>
    obtain ⟨⟨e1, h1⟩, ⟨e2, h2⟩⟩ := hp
    rw [← hq] at h1 h2
    obtain ⟨e, g1, g2⟩ := insert_agree (strat_like_sort c _ _ _ h1) (strat_like_sort c _ _ _ h2) hg hf.1 hf.2
    unfold exec
    simp only [e]
    refine ⟨rfl, fun x hx => ?_⟩
    cases hx
    exact ⟨g1, g2⟩
  | deleteMins =>
    obtain ⟨⟨e1, h1⟩, ⟨e2, h2⟩⟩ := hp
    rw [← hq] at h1 h2
    have m1 := strat_like_sort c _ _ _ h1
    have m2 := strat_like_sort c _ _ _ h2
    obtain ⟨e, g⟩ := delete_agree (mgs := fun a b => if b.length = h.batchSize then p.2.merge c.minV c.maxV c.zero c.sizes a b
        else p.1.merge c.minV c.maxV c.zero c.sizes a b) (P := Fits c.sizes) (h := h)
      (fun a b ha hb => by simp only [hb.len, if_true]; exact m2 a b ha hb)
      (fun a b ha hb => by
        have := hg.npos
        simp only [hb.len]
        rw [if_neg (by omega)]
        exact m1 a b ha hb) hg
    unfold exec
    simp only [e]
    refine ⟨rfl, fun x hx => ?_⟩
    unfold step at hx
    rw [Option.map_eq_some_iff] at hx
    obtain ⟨⟨h', r⟩, h1, rfl⟩ := hx
    exact g h' r h1

/-- **C99.**  Whatever the environment is at each call, and whatever traces the process has kept from earlier calls: the calls that do not raise return what
the queues that merge by sorting return, and the calls that raise change no queue. -/
theorem items_settings (c : Setup K E) (sh : Nat → QShape) (is : List (Item K E)) (t : Traces) (ht : t.Ok c) (hs : Nat → Heap K (List (List E)))
    (hg : ∀ q, HGood (Fits c.sizes) (hs q)) (hq : ∀ q, (hs q).batchSize = (sh q).2) (hf : ∀ i ∈ is, FitsOp c.sizes (sh i.q).2 i.op) :
    runItems c sh t hs is = sortQueues hs (is.map fun i => (i.q, i.op)) (verdicts c sh t is) := by
  induction is generalizing t hs with
  | nil => rfl
  | cons i is ih =>
    have hok := traceOp_ok ht i.env (sh i.q) i.op
    unfold runItems verdicts
    simp only [List.map_cons]
    generalize traceOp (c.at i.env) t (sh i.q) i.op = r at hok
    obtain ⟨t', r⟩ := r
    have hf' : ∀ j ∈ is, FitsOp c.sizes (sh j.q).2 j.op := fun j hj => hf j (by simp [hj])
    cases r with
    | error e => simp only [sortQueues]; rw [ih t' hok.1 hs hg hq hf']
    | ok p =>
      obtain ⟨e, g⟩ := exec_eq c (hg i.q) (hq i.q) (hok.2 p rfl) (by rw [hq]; exact hf i (by simp))
      simp only [sortQueues, e]
      cases hst : step (hs i.q) i.op with
      | none => rfl
      | some x =>
        simp only
        obtain ⟨g1, g2⟩ := g x hst
        rw [ih t' hok.1 (update hs i.q x.1) (fun q => ?_) (fun q => ?_) hf']
        · unfold update; split
          · exact g1
          · exact hg q
        · unfold update; split
          · rename_i hqq; rw [g2, hq, hqq]
          · exact hq q

/-- **C99.**  The same from the start of a process, for queues built with any sizes. -/
theorem process_settings (c : Setup K E) (total batch : Nat → Nat) (ht : ∀ q, 0 < total q) (hb : ∀ q, 0 < batch q) (dflt : List (List E))
    (hd : Fits c.sizes dflt) (is : List (Item K E)) (hf : ∀ i ∈ is, FitsOp c.sizes (batch i.q) i.op) :
    let h0 : Nat → Heap K (List (List E)) := fun q => build (total q) (batch q) dflt
    let sh : Nat → QShape := fun q => ((h0 q).branchSize, (h0 q).batchSize)
    runItems c sh .empty h0 is = sortQueues h0 (is.map fun i => (i.q, i.op)) (verdicts c sh .empty is) :=
  items_settings c _ is .empty (Traces.empty_ok c) _ (fun q => hgood_build _ _ (ht q) (hb q) dflt hd) (fun _ => rfl) hf

/-! ## What the specification says about one queue -/

section Project

variable {K : Type u} [KeyPad K] {V : Type v}

/-- The operations on `q` that did not raise. -/
def acceptedOps (q : Nat) : List (Nat × Op K V) → List (Option CfgErr) → List (Op K V)
  | (q', op) :: cs, none :: vs => if q' = q then op :: acceptedOps q cs vs else acceptedOps q cs vs
  | _ :: cs, some _ :: vs => acceptedOps q cs vs
  | _, _ => []

/-- What calls on `q` returned. -/
def returnsOf (q : Nat) : List (Nat × Op K V) → List (Outcome K V) → List (Out K V)
  | (q', _) :: cs, .returned o :: os => if q' = q then o :: returnsOf q cs os else returnsOf q cs os
  | _ :: cs, _ :: os => returnsOf q cs os
  | _, _ => []

/-- Each queue of the specification returns what it returns when used alone, for the operations that did not raise (unless some call does not return). -/
theorem sortQueues_run (q : Nat) (cs : List (Nat × Op K V)) (vs : List (Option CfgErr)) (hs : Nat → Heap K V) (hl : vs.length = cs.length)
    (hh : Outcome.hangs ∉ sortQueues hs cs vs) :
    ∃ h', run (hs q) (acceptedOps q cs vs) = some (h', returnsOf q cs (sortQueues hs cs vs)) := by
  induction cs generalizing vs hs with
  | nil =>
    cases vs with
    | nil => exact ⟨hs q, rfl⟩
    | cons v vs => simp at hl
  | cons a cs ih =>
    obtain ⟨q', op⟩ := a
    cases vs with
    | nil => simp at hl
    | cons v vs =>
      have hl' : vs.length = cs.length := by simpa using hl
      cases v with
      | some e =>
        simp only [sortQueues, acceptedOps, returnsOf] at hh ⊢
        exact ih vs hs hl' (fun h => hh (List.mem_cons_of_mem _ h))
      | none =>
        simp only [sortQueues, acceptedOps] at hh ⊢
        cases hst : step (hs q') op with
        | none => rw [hst] at hh; simp at hh
        | some x =>
          rw [hst] at hh
          simp only [returnsOf] at hh ⊢
          obtain ⟨h', hr⟩ := ih vs (update hs q' x.1) hl' (fun h => hh (List.mem_cons_of_mem _ h))
          by_cases hq : q' = q
          · subst hq
            rw [if_pos rfl, if_pos rfl]
            refine ⟨h', ?_⟩
            have : update hs q' x.1 q' = x.1 := by simp [update]
            rw [this] at hr
            simp only [run, hst, Option.bind_some, hr, Option.map_some]
          · rw [if_neg hq, if_neg hq]
            have : update hs q' x.1 q = hs q := by unfold update; rw [if_neg (fun h => hq h.symm)]
            rw [this] at hr
            exact ⟨h', hr⟩

end Project

/-! ## When a changed setting has an effect -/

/-- Has a call of this kind on a queue of this shape returned before? -/
def Traces.Kept (t : Traces) (q : QShape) : Op K (List (List E)) → Prop
  | .insert _ => ∃ p, t.insert q = some p
  | .deleteMins => ∃ p, t.delete q = some p

theorem traceSplit_keeps (c : Setup K E) (t : Traces) (n m : Nat) : (traceSplit c t n m).1.insert = t.insert ∧ (traceSplit c t n m).1.delete = t.delete ∧
    ∀ n' m' s, t.split n' m' = some s → (traceSplit c t n m).1.split n' m' = some s := by
  unfold traceSplit
  cases h : t.split n m with
  | some s => exact ⟨rfl, rfl, fun _ _ _ h => h⟩
  | none =>
    cases hr : c.resolve .sortsplit n m with
    | error e => exact ⟨rfl, rfl, fun _ _ _ h => h⟩
    | ok s =>
      refine ⟨rfl, rfl, fun n' m' s' h' => ?_⟩
      show update t.split n (update (t.split n) m (some s)) n' m' = some s'
      unfold update
      by_cases hn : n' = n
      · rw [if_pos hn]
        by_cases hm : m' = m
        · subst hn hm; rw [h] at h'; cases h'
        · rw [if_neg hm]; subst hn; exact h'
      · rw [if_neg hn]; exact h'

theorem traceBuffer_keeps (c : Setup K E) (t : Traces) (q : QShape) : (traceBuffer c t q).1.insert = t.insert ∧ (traceBuffer c t q).1.delete = t.delete := by
  unfold traceBuffer
  cases h : t.buffer q with
  | some s => exact ⟨rfl, rfl⟩
  | none =>
    cases hr : c.resolve .buffer q.2 (q.2 - 1) with
    | error e => exact ⟨rfl, rfl⟩
    | ok s => exact ⟨rfl, rfl⟩

theorem update_some {A : Type} {B : Type u} [DecidableEq A] {f : A → Option B} {a a' : A} {b b' : B} (hn : f a = none) (h : f a' = some b') :
    update f a (some b) a' = some b' := by
  unfold update
  by_cases ha : a' = a
  · subst ha; rw [hn] at h; cases h
  · rw [if_neg ha]; exact h

/-- **C99.**  A trace, once kept, is kept for ever. -/
theorem trace_kept (c : Setup K E) (t : Traces) (q q' : QShape) (op : Op K (List (List E))) (p : Strat × Strat) :
    (t.insert q' = some p → (traceOp c t q op).1.insert q' = some p) ∧ (t.delete q' = some p → (traceOp c t q op).1.delete q' = some p) := by
  cases op with
  | insert block =>
    unfold traceOp
    cases h : t.insert q with
    | some p' => exact ⟨id, id⟩
    | none =>
      have h1 := traceSplit_keeps c t q.2 q.2
      generalize traceSplit c t q.2 q.2 = r1 at h1
      obtain ⟨t1, r1⟩ := r1
      cases r1 with
      | error e => exact ⟨fun h => by rw [h1.1]; exact h, fun h => by rw [h1.2.1]; exact h⟩
      | ok s =>
        have h2 := traceBuffer_keeps c t1 q
        generalize hb : traceBuffer c t1 q = r2 at h2
        obtain ⟨t2, r2⟩ := r2
        simp only [hb]
        have hi : t2.insert = t.insert := h2.1.trans h1.1
        have hd : t2.delete = t.delete := h2.2.trans h1.2.1
        cases r2 with
        | error e => exact ⟨fun h => by rw [hi]; exact h, fun h => by rw [hd]; exact h⟩
        | ok b => exact ⟨fun h' => update_some (by rw [hi]; exact h) (by rw [hi]; exact h'), fun h => by rw [hd]; exact h⟩
  | deleteMins =>
    unfold traceOp
    cases h : t.delete q with
    | some p' => exact ⟨id, id⟩
    | none =>
      have h1 := traceSplit_keeps c t q.2 (q.2 - 1)
      generalize traceSplit c t q.2 (q.2 - 1) = r1 at h1
      obtain ⟨t1, r1⟩ := r1
      cases r1 with
      | error e => exact ⟨fun h => by rw [h1.1]; exact h, fun h => by rw [h1.2.1]; exact h⟩
      | ok s =>
        have h2 := traceSplit_keeps c t1 q.2 q.2
        generalize hb : traceSplit c t1 q.2 q.2 = r2 at h2
        obtain ⟨t2, r2⟩ := r2
        simp only [hb]
        have hi : t2.insert = t.insert := h2.1.trans h1.1
        have hd : t2.delete = t.delete := h2.2.1.trans h1.2.1
        cases r2 with
        | error e => exact ⟨fun h => by rw [hi]; exact h, fun h => by rw [hd]; exact h⟩
        | ok b => exact ⟨fun h => by rw [hi]; exact h, fun h' => update_some (by rw [hd]; exact h) (by rw [hd]; exact h')⟩

theorem kept_mono (c : Setup K E) (t : Traces) (q q' : QShape) (op op' : Op K (List (List E))) (h : t.Kept q' op') : (traceOp c t q op).1.Kept q' op' := by
  cases op' with
  | insert b => obtain ⟨p, h⟩ := h; exact ⟨p, (trace_kept c t q q' op p).1 h⟩
  | deleteMins => obtain ⟨p, h⟩ := h; exact ⟨p, (trace_kept c t q q' op p).2 h⟩

/-- A call that returns keeps its trace. -/
theorem kept_of_ok (c : Setup K E) (t : Traces) (q : QShape) (op : Op K (List (List E))) {p : Strat × Strat} (h : (traceOp c t q op).2 = .ok p) :
    (traceOp c t q op).1.Kept q op := by
  have hu : ∀ (f : QShape → Option (Strat × Strat)) (x : Strat × Strat), update f q (some x) q = some x := fun f x => by simp [update]
  cases op with
  | insert block =>
    unfold traceOp at h ⊢
    cases hc : t.insert q with
    | some p' => exact ⟨p', hc⟩
    | none =>
      rw [hc] at h
      simp only at h ⊢
      generalize traceSplit c t q.2 q.2 = r1 at h
      obtain ⟨t1, r1⟩ := r1
      cases r1 with
      | error e => cases h
      | ok s =>
        simp only at h ⊢
        generalize traceBuffer c t1 q = r2 at h
        obtain ⟨t2, r2⟩ := r2
        cases r2 with
        | error e => cases h
        | ok b => exact ⟨(s, b), hu _ _⟩
  | deleteMins =>
    unfold traceOp at h ⊢
    cases hc : t.delete q with
    | some p' => exact ⟨p', hc⟩
    | none =>
      rw [hc] at h
      simp only at h ⊢
      generalize traceSplit c t q.2 (q.2 - 1) = r1 at h
      obtain ⟨t1, r1⟩ := r1
      cases r1 with
      | error e => cases h
      | ok s =>
        simp only at h ⊢
        generalize traceSplit c t1 q.2 q.2 = r2 at h
        obtain ⟨t2, r2⟩ := r2
        cases r2 with
        | error e => cases h
        | ok b => exact ⟨(s, b), hu _ _⟩

/-- **C99.**  After the first call of a kind on a queue shape that returned, changes of the environment are neither followed nor refused: every later call of
that kind on a queue of that shape runs the kept trace, whatever the environment is, and the traces stay as they are. -/
theorem later_settings_ignored (c c' : Setup K E) (t : Traces) (q : QShape) (op : Op K (List (List E))) (h : t.Kept q op) :
    (∃ p, (traceOp c t q op).2 = .ok p) ∧ (traceOp c t q op).1 = t ∧ traceOp c t q op = traceOp c' t q op := by
  cases op with
  | insert b => obtain ⟨p, h⟩ := h; unfold traceOp; rw [h]; exact ⟨⟨p, rfl⟩, rfl, rfl⟩
  | deleteMins => obtain ⟨p, h⟩ := h; unfold traceOp; rw [h]; exact ⟨⟨p, rfl⟩, rfl, rfl⟩

/-- **C99.**  A call whose current settings are accepted does not raise, whatever the process did before. -/
theorem accepted_never_raises (c : Setup K E) (t : Traces) (q : QShape) (op : Op K (List (List E))) (h : c.Accepts q.2 op) :
    ∃ p, (traceOp c t q op).2 = .ok p := by
  have hsplit : ∀ (t : Traces) n m, (∃ s, c.resolve .sortsplit n m = .ok s) → ∃ s, (traceSplit c t n m).2 = .ok s := by
    intro t n m ⟨s, hs⟩
    unfold traceSplit
    cases t.split n m with
    | some s => exact ⟨s, rfl⟩
    | none => rw [hs]; exact ⟨s, rfl⟩
  cases op with
  | insert b =>
    obtain ⟨h1, h2⟩ := trace_insert h
    unfold traceOp
    cases t.insert q with
    | some p => exact ⟨p, rfl⟩
    | none =>
      obtain ⟨s, hs⟩ := hsplit t q.2 q.2 h1
      generalize traceSplit c t q.2 q.2 = r1 at hs
      obtain ⟨t1, r1⟩ := r1
      cases hs
      simp only
      have : ∃ b, (traceBuffer c t1 q).2 = .ok b := by
        obtain ⟨b, hb⟩ := h2
        unfold traceBuffer
        cases t1.buffer q with
        | some s => exact ⟨s, rfl⟩
        | none => rw [hb]; exact ⟨b, rfl⟩
      obtain ⟨b, hb⟩ := this
      generalize traceBuffer c t1 q = r2 at hb
      obtain ⟨t2, r2⟩ := r2
      cases hb
      exact ⟨_, rfl⟩
  | deleteMins =>
    obtain ⟨h1, h2⟩ := trace_delete h
    unfold traceOp
    cases t.delete q with
    | some p => exact ⟨p, rfl⟩
    | none =>
      obtain ⟨s, hs⟩ := hsplit t q.2 (q.2 - 1) h2
      generalize traceSplit c t q.2 (q.2 - 1) = r1 at hs
      obtain ⟨t1, r1⟩ := r1
      cases hs
      simp only
      obtain ⟨b, hb⟩ := hsplit t1 q.2 q.2 h1
      generalize traceSplit c t1 q.2 q.2 = r2 at hb
      obtain ⟨t2, r2⟩ := r2
      cases hb
      exact ⟨_, rfl⟩

/-- **C99.**  In a new process the first call raises exactly if its settings are not accepted (C82). -/
theorem first_call_raises_iff (c : Setup K E) (q : QShape) (op : Op K (List (List E))) :
    (∃ e, (traceOp c .empty q op).2 = .error e) ↔ ¬ c.Accepts q.2 op := by
  constructor
  · rintro ⟨e, h⟩ ha
    obtain ⟨p, hp⟩ := accepted_never_raises c .empty q op ha
    rw [h] at hp
    cases hp
  · intro h
    cases hr : (traceOp c .empty q op).2 with
    | error e => exact ⟨e, rfl⟩
    | ok p =>
      refine absurd ?_ h
      rw [accepts_iff, ← resolve_ok_iff]
      cases op with
      | insert b =>
        simp only
        rw [← resolve_ok_iff]
        unfold traceOp Traces.empty traceSplit at hr
        simp only at hr
        unfold Setup.resolve at hr
        cases h1 : resolve c.py c.env c.dev .sortsplit c.sizes q.2 q.2 with
        | error e => rw [h1] at hr; cases hr
        | ok s =>
          rw [h1] at hr
          simp only [traceBuffer, Setup.resolve] at hr
          cases h2 : resolve c.py c.env c.dev .buffer c.sizes q.2 (q.2 - 1) with
          | error e => rw [h2] at hr; cases hr
          | ok b => exact ⟨⟨s, rfl⟩, ⟨b, rfl⟩⟩
      | deleteMins =>
        simp only
        rw [← resolve_ok_iff]
        unfold traceOp Traces.empty traceSplit at hr
        simp only at hr
        unfold Setup.resolve at hr
        cases h1 : resolve c.py c.env c.dev .sortsplit c.sizes q.2 (q.2 - 1) with
        | error e => rw [h1] at hr; cases hr
        | ok b =>
          rw [h1] at hr
          simp only at hr
          by_cases hz : q.2 = q.2 - 1
          · exact ⟨⟨b, by rw [← hz] at h1; exact h1⟩, ⟨b, rfl⟩⟩
          · have hu : update (fun _ => fun _ => (none : Option Strat)) q.2 (update (fun _ => none) (q.2 - 1) (some b)) q.2 q.2 = none := by
              simp only [update, if_true]
              rw [if_neg hz]
            rw [hu] at hr
            simp only at hr
            cases h2 : resolve c.py c.env c.dev .sortsplit c.sizes q.2 q.2 with
            | error e => rw [h2] at hr; cases hr
            | ok s => exact ⟨⟨s, rfl⟩, ⟨b, rfl⟩⟩

/-! ## A process in which the settings change -/

/-- Settings at the time of the calls: the key-value kernel for all merges; nothing set; a word that is not documented, for the buffer or for everything. -/
def envKv : Env := demoEnv
def envNone : Env := fun _ => none
def envBadBuffer : Env := fun name => if name = "XTRUCTURE_BGPQ_MERGE_VALUE_BACKEND_BUFFER" then some "maybe" else demoEnv name
def envBad : Env := fun name => if name = "XTRUCTURE_BGPQ_MERGE_VALUE_BACKEND" then some "maybe" else none

/-- The process on a GPU; nothing was set on import. -/
def procSetup : Setup (Option Nat) Nat := { demoSetup .gpu with env := fun _ => none }

def ins (k : Nat) : Op (Option Nat) (List (List Nat)) := .insert [(some k, [[k], [k, k, k]]), (none, [[0], [0, 0, 0]])]

/-- Kind of outcome and strategy pair of each call on queues of shapes `sh`. -/
def plans (c : Setup (Option Nat) Nat) (sh : Nat → QShape) : Traces → List (Item (Option Nat) Nat) → List (Except CfgErr (Strat × Strat))
  | _, [] => []
  | t, i :: is => (traceOp (c.at i.env) t (sh i.q) i.op).2 :: plans c sh (traceOp (c.at i.env) t (sh i.q) i.op).1 is

/-- **C99, finding.**  An undocumented word is refused by the first call only; an `insert` that was refused because of the setting for the buffer fixes the
strategy for the other merges all the same: the next call, with nothing set, runs the key-value kernel. -/
theorem changed_settings :
    plans procSetup (fun _ => (4, 2)) .empty [⟨envBad, 0, ins 1⟩, ⟨envNone, 0, ins 1⟩, ⟨envBad, 0, ins 1⟩, ⟨envKv, 0, ins 1⟩, ⟨envBad, 0, .deleteMins⟩] =
      [.error .value, .ok (.idx (some 16) false, .idx (some 16) false), .ok (.idx (some 16) false, .idx (some 16) false),
       .ok (.idx (some 16) false, .idx (some 16) false), .error .value] ∧
    plans procSetup (fun _ => (4, 2)) .empty [⟨envBadBuffer, 0, ins 1⟩, ⟨envNone, 0, ins 1⟩] =
      [.error .value, .ok (.kv 4 [.shard, .shard], .idx (some 16) false)] ∧
    plans procSetup (fun _ => (4, 2)) .empty [⟨envNone, 0, ins 1⟩] = [.ok (.idx (some 16) false, .idx (some 16) false)] := by
  refine ⟨by rfl, by rfl, by rfl⟩

/-- The hypotheses of `process_settings` on a process with two queues and changing settings, one call being refused. -/
example : let is : List (Item (Option Nat) Nat) := [⟨envBadBuffer, 0, ins 1⟩, ⟨envNone, 1, ins 5⟩, ⟨envKv, 0, ins 3⟩, ⟨envBad, 1, ins 2⟩, ⟨envKv, 1, .deleteMins⟩]
    (∀ i ∈ is, FitsOp procSetup.sizes 2 i.op) ∧ Fits procSetup.sizes [[0], [0, 0, 0]] ∧
    verdicts procSetup (fun q => (q + 2, 2)) .empty is = [some .value, none, none, none, none] := by
  refine ⟨?_, rfl, by rfl⟩
  intro i hi
  simp only [List.mem_cons, List.not_mem_nil, or_false] at hi
  rcases hi with rfl | rfl | rfl | rfl | rfl <;> first | trivial | exact ⟨rfl, by intro x hx; simp at hx; rcases hx with rfl | rfl <;> rfl⟩

end Bgpq
