import Verif.XnpModel
import Verif.SoAAxisOps2

/-!
# C75, C76: the public functions of `xtructure_numpy`
-/

namespace Xnp

open Agg NArr SoA

variable {α : Type} [Inhabited α] {env : Nat → Cls α}

/-! ## C75: functions of a list -/

theorem any_inst_of_mem {args : List (Val α)} {c : Nat} {x : Tree α} (h : Val.inst c x ∈ args) : args.any Val.isInst = true :=
  List.any_eq_true.2 ⟨_, h, rfl⟩

theorem all_inst_false {args : List (Val α)} {a : NArr α} (h : Val.arr a ∈ args) : args.all Val.isInst = false := by
  cases hc : args.all Val.isInst with
  | false => rfl
  | true => cases List.all_eq_true.1 hc _ h

/-- An empty list is a `ValueError`. -/
theorem list_empty (fn : ListFn) : fn.call env [] = .error .valueError := rfl

/-- Arrays and instances cannot be mixed: `TypeError`, wherever they are in the list. -/
theorem list_mixed (fn : ListFn) {args : List (Val α)} {a : NArr α} {c : Nat} {x : Tree α} (ha : Val.arr a ∈ args)
    (hx : Val.inst c x ∈ args) : fn.call env args = .error .typeError := by
  unfold ListFn.call checkHomogeneous
  have hne : args.isEmpty = false := by
    cases args with
    | nil => cases ha
    | cons => rfl
  rw [hne, any_inst_of_mem hx, all_inst_false ha]
  rfl

theorem arrays_map (as : List (NArr α)) : arrays (as.map Val.arr) = as := by
  induction as with
  | nil => rfl
  | cons a as ih => exact congrArg (a :: ·) ih

theorem insts_map (l : List (Nat × Tree α)) : insts (l.map fun p => Val.inst p.1 p.2) = l := by
  induction l with
  | nil => rfl
  | cons p l ih => exact congrArg (p :: ·) ih

/-- A non-empty list of arrays goes to the `jax.numpy` function. -/
theorem list_arrays (fn : ListFn) {as : List (NArr α)} (h : as ≠ []) :
    fn.call env (as.map Val.arr) = ret Val.arr (fn.onArrays as) := by
  have hall : (as.map (Val.arr : NArr α → Val α)).all Val.isInst = false := by
    cases as with
    | nil => exact absurd rfl h
    | cons a as => rfl
  have hany : (as.map (Val.arr : NArr α → Val α)).any Val.isInst = false := by
    rw [List.any_map]
    exact List.any_eq_false.2 fun a _ => by simp [Val.isInst]
  have hne : (as.map (Val.arr : NArr α → Val α)).isEmpty = false := by
    cases as with
    | nil => exact absurd rfl h
    | cons a as => rfl
  unfold ListFn.call checkHomogeneous
  rw [hne, hany, hall, arrays_map]
  rfl

theorem call_insts (fn : ListFn) {l : List (Nat × Tree α)} (h : l ≠ []) :
    fn.call env (l.map fun p => Val.inst p.1 p.2) = onSameClass env fn.onInsts l := by
  have hall : (l.map fun p => (Val.inst p.1 p.2 : Val α)).all Val.isInst = true := by
    rw [List.all_map]
    exact List.all_eq_true.2 fun _ _ => rfl
  have hne : (l.map fun p => (Val.inst p.1 p.2 : Val α)).isEmpty = false := by
    cases l with
    | nil => exact absurd rfl h
    | cons a as => rfl
  unfold ListFn.call checkHomogeneous
  rw [hne, hall, insts_map]
  simp

/-- A non-empty list of instances of one class goes to the function on instances; the result is of that class. -/
theorem list_insts (fn : ListFn) (c : Nat) {xs : List (Tree α)} (h : xs ≠ []) :
    fn.call env (xs.map (Val.inst c)) = ret (Val.inst c) (fn.onInsts (env c) xs) := by
  have e := call_insts (env := env) fn (l := xs.map fun x => (c, x)) (by simpa using h)
  rw [List.map_map] at e
  refine Eq.trans (show _ = _ from e) ?_
  cases xs with
  | nil => exact absurd rfl h
  | cons x xs =>
    rw [List.map_cons]
    unfold onSameClass
    dsimp only
    rw [if_pos (by rw [List.all_map]; exact List.all_eq_true.2 fun _ _ => by simp), List.map_map]
    congr 2
    exact congrArg _ (List.map_id _)

/-- Instances of different classes cannot be combined. -/
theorem list_classes (fn : ListFn) {args : List (Val α)} {c c' : Nat} {x y : Tree α} (hx : Val.inst c x ∈ args) (hy : Val.inst c' y ∈ args)
    (hne : c ≠ c') : ∃ e, fn.call env args = .error e := by
  by_cases hall : args.all Val.isInst = true
  · have key : ∀ (args : List (Val α)), args.all Val.isInst = true → ∃ l : List (Nat × Tree α), args = l.map fun p => Val.inst p.1 p.2 := by
      intro args
      induction args with
      | nil => intro _; exact ⟨[], rfl⟩
      | cons v args ih =>
        intro h
        rw [List.all_cons, Bool.and_eq_true] at h
        obtain ⟨l, hl⟩ := ih h.2
        cases v with
        | arr a => cases h.1
        | inst c x => exact ⟨(c, x) :: l, by rw [hl]; rfl⟩
    obtain ⟨l, rfl⟩ := key args hall
    obtain ⟨p, hp, hp'⟩ := List.mem_map.1 hx
    obtain ⟨q, hq, hq'⟩ := List.mem_map.1 hy
    cases hp'
    cases hq'
    cases l with
    | nil => cases hp
    | cons a l =>
      rw [call_insts fn (List.cons_ne_nil _ _)]
      refine ⟨.raised, ?_⟩
      unfold onSameClass
      dsimp only
      rw [if_neg]
      intro hc
      rw [List.all_eq_true] at hc
      have g : ∀ r ∈ a :: l, r.1 = a.1 := by
        intro r hr
        rcases List.mem_cons.1 hr with rfl | hr
        · rfl
        · exact eq_of_beq (hc r hr)
      exact hne ((g p hp).trans (g q hq).symm)
  · have : ∃ v ∈ args, v.isInst = false := by
      apply Classical.byContradiction
      intro hc
      apply hall
      rw [List.all_eq_true]
      intro v hv
      cases hvi : v.isInst with
      | true => rfl
      | false => exact absurd ⟨v, hv, hvi⟩ hc
    obtain ⟨v, hv, hvi⟩ := this
    cases v with
    | inst => cases hvi
    | arr a => exact ⟨_, list_mixed fn hv hx⟩

/-- **C75.**  `concat`, `concatenate`, `stack`, `vstack`, `hstack`, `dstack`, `column_stack` (with any axis): a call succeeds
only on a non-empty list of arrays, giving what `jax.numpy` gives, or on a non-empty list of instances of one class, giving an
instance of that class. -/
theorem list_functions_dispatch (fn : ListFn) (args : List (Val α)) (r : Val α) :
    fn.call env args = .ok r ↔
      (∃ (as : List (NArr α)) (a : NArr α), as ≠ [] ∧ args = as.map Val.arr ∧ r = .arr a ∧ fn.onArrays as = some a) ∨
      (∃ (c : Nat) (xs : List (Tree α)) (z : Tree α), xs ≠ [] ∧ args = xs.map (Val.inst c) ∧ r = .inst c z ∧ fn.onInsts (env c) xs = some z) := by
  constructor
  · intro h
    cases args with
    | nil => cases h
    | cons v args =>
      cases v with
      | arr a =>
        have key : ∀ (l : List (Val α)), (∀ c x, Val.inst c x ∉ l) → ∃ as : List (NArr α), l = as.map Val.arr := by
          intro l
          induction l with
          | nil => intro _; exact ⟨[], rfl⟩
          | cons v l ih =>
            intro hl
            obtain ⟨as, has⟩ := ih fun c x hm => hl c x (List.mem_cons_of_mem _ hm)
            cases v with
            | arr a => exact ⟨a :: as, by rw [has]; rfl⟩
            | inst c x => exact absurd (List.mem_cons_self ..) (hl c x)
        obtain ⟨as, has⟩ := key (.arr a :: args) fun c x hm => by
          rw [list_mixed fn (List.mem_cons_self ..) hm] at h
          cases h
        have hne : as ≠ [] := by
          rintro rfl
          cases has
        rw [has, list_arrays fn hne] at h
        cases ho : fn.onArrays as with
        | none => rw [ho] at h; cases h
        | some z =>
          rw [ho] at h
          exact Or.inl ⟨as, z, hne, has, (Except.ok.inj h).symm, ho⟩
      | inst c x =>
        have key : ∀ (l : List (Val α)), (∀ a, Val.arr a ∉ l) → (∀ c' x', Val.inst c' x' ∈ l → c' = c) →
            ∃ xs : List (Tree α), l = xs.map (Val.inst c) := by
          intro l
          induction l with
          | nil => intro _ _; exact ⟨[], rfl⟩
          | cons v l ih =>
            intro h1 h2
            obtain ⟨xs, hxs⟩ := ih (fun a hm => h1 a (List.mem_cons_of_mem _ hm)) fun c' x' hm => h2 c' x' (List.mem_cons_of_mem _ hm)
            cases v with
            | arr a => exact absurd (List.mem_cons_self ..) (h1 a)
            | inst c' x' =>
              have := h2 c' x' (List.mem_cons_self ..)
              subst this
              exact ⟨x' :: xs, by rw [hxs]; rfl⟩
        obtain ⟨xs, hxs⟩ := key (.inst c x :: args)
          (fun a hm => by
            rw [list_mixed fn hm (List.mem_cons_self ..)] at h
            cases h)
          (fun c' x' hm => Classical.byContradiction fun hne => by
            obtain ⟨e, he⟩ := list_classes (env := env) fn hm (List.mem_cons_self ..) hne
            rw [he] at h
            cases h)
        have hne : xs ≠ [] := by
          rintro rfl
          cases hxs
        rw [hxs, list_insts fn c hne] at h
        cases ho : fn.onInsts (env c) xs with
        | none => rw [ho] at h; cases h
        | some z =>
          rw [ho] at h
          exact Or.inr ⟨c, xs, z, hne, hxs, (Except.ok.inj h).symm, ho⟩
  · rintro (⟨as, a, hne, rfl, rfl, ho⟩ | ⟨c, xs, z, hne, rfl, rfl, ho⟩)
    · rw [list_arrays fn hne, ho]; rfl
    · rw [list_insts fn c hne, ho]; rfl

/-- The public `concat` and `concatenate` on batches: the record theorem of C46. -/
theorem public_concat_records {cid : Nat} {bs : List (List Nat)} {b0 : List Nat} {xs : List (Tree α)} {ax : Nat} (hne : env cid ≠ .nil)
    (hc : (env cid).HasFields) (h : Confs bs (env cid) xs) (h0 : bs[0]? = some b0) (hax : ax < b0.length)
    (hb : ∀ b ∈ bs, b.length = b0.length ∧ b.eraseIdx ax = b0.eraseIdx ax) :
    ∃ z, (ListFn.concat (some ax)).call env (xs.map (Val.inst cid)) = .ok (.inst cid z) ∧
      (ListFn.concatenate (some ax)).call env (xs.map (Val.inst cid)) = .ok (.inst cid z) ∧
      Conf (b0.set ax (bs.map fun b => b.getD ax 0).sum) (env cid) z ∧
      ∀ (k : Nat) (x : Tree α) (b i : List Nat), xs[k]? = some x → bs[k]? = some b → InB b i →
        item (i.set ax (offset (bs.map fun b => b.getD ax 0) k + i.getD ax 0)) z = item i x := by
  obtain ⟨z, hz, h1, h2⟩ := concat_records hne hc h h0 hax hb
  have hx : xs ≠ [] := by
    rintro rfl
    have : bs = [] := List.length_eq_zero_iff.1 (by simpa using h.1.symm)
    rw [this] at h0
    cases h0
  refine ⟨z, ?_, ?_, h1, h2⟩
  · rw [list_insts _ cid hx]
    show ret _ (SoA.concat _ _ _) = _
    rw [hz]; rfl
  · rw [list_insts _ cid hx]
    show ret _ (SoA.concat _ _ _) = _
    rw [hz]; rfl

/-- The public `stack` on records or batches. -/
theorem public_stack_records {cid : Nat} {b : List Nat} {xs : List (Tree α)} {ax : Nat} (hne : env cid ≠ .nil) (hc : (env cid).HasFields)
    (hx : xs ≠ []) (h : ∀ x ∈ xs, Conf b (env cid) x) (hax : ax ≤ b.length) :
    ∃ z, (ListFn.stack ax).call env (xs.map (Val.inst cid)) = .ok (.inst cid z) ∧
      Conf (b.take ax ++ xs.length :: b.drop ax) (env cid) z ∧
      ∀ (k : Nat) (x : Tree α) (j : List Nat), xs[k]? = some x → InB b j → item (j.take ax ++ k :: j.drop ax) z = item j x := by
  obtain ⟨z, hz, h1, h2⟩ := stack_records hne hc hx h hax
  refine ⟨z, ?_, h1, h2⟩
  rw [list_insts _ cid hx]
  show ret _ (SoA.stack _ _ _) = _
  rw [hz]; rfl

/-! ## `where` and `update_on_condition` -/

/-- `where` succeeds, if one of `x` and `y` is an instance, only if `x` is one and `y` is an instance of the same class or an
array, and neither `size` nor `fill_value` is given; the result is of the class of `x`.  Otherwise it raises `TypeError`, or
what the function on instances raises. -/
theorem where_dispatch (cond : NArr Bool) (x y : Option (Val α)) (extra : Bool)
    (hi : (∃ c z, x = some (.inst c z)) ∨ ∃ c z, y = some (.inst c z)) (r : Val α) :
    «where» cond x y extra = .ok r ↔ extra = false ∧ ∃ c z w, x = some (.inst c z) ∧ r = .inst c w ∧
      ((∃ z', y = some (.inst c z') ∧ SoA.whereInst cond z z' = some w) ∨ ∃ b, y = some (.arr b) ∧ SoA.whereRaw cond z b = some w) := by
  have hany : ((x.map Val.isInst).getD false || (y.map Val.isInst).getD false) = true := by
    rcases hi with ⟨c, z, rfl⟩ | ⟨c, z, rfl⟩
    · rfl
    · cases x with
      | none => rfl
      | some v => cases v <;> rfl
  unfold «where»
  rw [if_pos hany]
  have hret : ∀ {β : Type} (f : β → Val α) (o : Option β), ret f o = .ok r ↔ ∃ w, o = some w ∧ r = f w := by
    intro β f o
    cases o with
    | none => exact ⟨fun h => (by cases h), fun ⟨w, h, _⟩ => (by cases h)⟩
    | some v => exact ⟨fun h => ⟨v, rfl, (Except.ok.inj h).symm⟩, fun ⟨w, h, h'⟩ => (by cases h; rw [h']; rfl)⟩
  rcases x with _ | (a | ⟨c, z⟩)
  · refine ⟨fun h => (by cases y <;> cases h), ?_⟩
    rintro ⟨_, c, z, w, h, _⟩
    cases h
  · refine ⟨fun h => (by cases y <;> cases h), ?_⟩
    rintro ⟨_, c, z, w, h, _⟩
    cases h
  · rcases y with _ | (b | ⟨c', z'⟩)
    · refine ⟨fun h => (by cases h), ?_⟩
      rintro ⟨_, c, z, w, _, _, ⟨_, h, _⟩ | ⟨_, h, _⟩⟩ <;> cases h
    · dsimp only
      cases extra with
      | true =>
        refine ⟨fun h => (by cases h), ?_⟩
        rintro ⟨h, _⟩
        cases h
      | false =>
        rw [if_neg (by decide), hret]
        constructor
        · rintro ⟨w, h, rfl⟩
          exact ⟨rfl, c, z, w, rfl, rfl, Or.inr ⟨b, rfl, h⟩⟩
        · rintro ⟨_, c1, z1, w, h1, rfl, ⟨_, h, _⟩ | ⟨b', h, h2⟩⟩
          · cases h
          · cases h1
            cases h
            exact ⟨w, h2, rfl⟩
    · dsimp only
      by_cases hc : c ≠ c'
      · rw [if_pos hc]
        refine ⟨fun h => (by cases h), ?_⟩
        rintro ⟨_, c1, z1, w, h1, _, ⟨_, h, _⟩ | ⟨_, h, _⟩⟩
        · cases h1
          cases h
          exact absurd rfl hc
        · cases h
      · rw [if_neg hc]
        have hc : c = c' := Classical.not_not.1 hc
        subst hc
        cases extra with
        | true =>
          refine ⟨fun h => (by cases h), ?_⟩
          rintro ⟨h, _⟩
          cases h
        | false =>
          rw [if_neg (by decide), hret]
          constructor
          · rintro ⟨w, h, rfl⟩
            exact ⟨rfl, c, z, w, rfl, rfl, Or.inl ⟨z', rfl, h⟩⟩
          · rintro ⟨_, c1, z1, w, h1, rfl, ⟨z2, h, h2⟩ | ⟨b', h, h2⟩⟩
            · cases h1
              cases h
              exact ⟨w, h2, rfl⟩
            · cases h

/-- `update_on_condition` succeeds only on an instance with values of the same class or an array, or on two arrays; the result is
of the class of the first argument. -/
theorem update_dispatch (upd : Tree α → Tree α → Option (Tree α)) (updRaw : Tree α → NArr α → Option (Tree α))
    (updArr : NArr α → NArr α → Option (NArr α)) (x v r : Val α) :
    updateOnCondition upd updRaw updArr x v = .ok r ↔
      (∃ c z z' w, x = .inst c z ∧ v = .inst c z' ∧ r = .inst c w ∧ upd z z' = some w) ∨
      (∃ c z b w, x = .inst c z ∧ v = .arr b ∧ r = .inst c w ∧ updRaw z b = some w) ∨
      ∃ a b w, x = .arr a ∧ v = .arr b ∧ r = .arr w ∧ updArr a b = some w := by
  have hret : ∀ {β : Type} (f : β → Val α) (o : Option β), ret f o = .ok r ↔ ∃ w, o = some w ∧ r = f w := by
    intro β f o
    cases o with
    | none => exact ⟨fun h => (by cases h), fun ⟨w, h, _⟩ => (by cases h)⟩
    | some v => exact ⟨fun h => ⟨v, rfl, (Except.ok.inj h).symm⟩, fun ⟨w, h, h'⟩ => (by cases h; rw [h']; rfl)⟩
  constructor
  · intro h
    rcases x with a | ⟨c, z⟩ <;> rcases v with b | ⟨c', z'⟩
    · obtain ⟨w, hw, hr⟩ := (hret _ _).1 h
      exact Or.inr (Or.inr ⟨a, b, w, rfl, rfl, hr, hw⟩)
    · cases h
    · obtain ⟨w, hw, hr⟩ := (hret _ _).1 h
      exact Or.inr (Or.inl ⟨c, z, b, w, rfl, rfl, hr, hw⟩)
    · by_cases hc : c = c'
      · subst hc
        have h' : ret (Val.inst c) (upd z z') = .ok r := by
          have e : updateOnCondition upd updRaw updArr (.inst c z) (.inst c z') = ret (Val.inst c) (upd z z') := if_neg fun h => h rfl
          rw [← e]; exact h
        obtain ⟨w, hw, hr⟩ := (hret _ _).1 h'
        exact Or.inl ⟨c, z, z', w, rfl, rfl, hr, hw⟩
      · have e : updateOnCondition upd updRaw updArr (.inst c z) (.inst c' z') = .error .typeError := if_pos hc
        rw [e] at h
        cases h
  · rintro (⟨c, z, z', w, rfl, rfl, rfl, h⟩ | ⟨c, z, b, w, rfl, rfl, rfl, h⟩ | ⟨a, b, w, rfl, rfl, rfl, h⟩)
    · refine Eq.trans (if_neg fun h => h rfl) ?_
      rw [h]; rfl
    · show ret _ (updRaw z b) = _
      rw [h]; rfl
    · show ret _ (updArr a b) = _
      rw [h]; rfl

/-! ## C76: `axis=None` -/

/-- With an explicit axis the public `take` selects records (C47). -/
theorem public_take_records {cid : Nat} {b s : List Nat} {x : Tree α} {oob : α} {inds : List Int} {ax n : Nat} (h : Conf b (env cid) x)
    (hn : b[ax]? = some n) (h0 : 0 < n) :
    ∃ z, take oob (.inst cid x) s inds (some ax) = .ok (.inst cid z) ∧ Conf (b.take ax ++ s ++ b.drop (ax + 1)) (env cid) z ∧
      ∀ p q u, InB (b.take ax) p → InB s q → InB (b.drop (ax + 1)) u → ∀ i, inds[ravel s q]? = some i → -(n : Int) ≤ i → i < n →
        item (p ++ q ++ u) z = item (p ++ (if i < 0 then (i + n).toNat else i.toNat) :: u) x := by
  obtain ⟨z, hz, h1, h2⟩ := take_records (s := s) (oob := oob) (inds := inds) h hn h0
  refine ⟨z, ?_, h1, h2⟩
  show ret _ (SoA.take _ _ _ _ _) = _
  rw [hz]; rfl

/-- **C76, scalar classes, `take`.**  For a class of scalar fields the default `take` is `jnp.take` on the array of records:
indices count the records in row-major order. -/
theorem take_default_scalar_partial (oob : α) {b : List Nat} {c : Cls α} {x : Tree α} (hs : c.Scalar) (he : c.HasEntry) (h : Conf b c x)
    (s : List Nat) (inds : List Int) :
    takeTree oob x s inds none = (NArr.take (fillRecord oob c) (NArr.flat (recordsOf b x)) s inds 0).map (fieldsOf c) := by
  refine fill_records (F := fun _ _ d a => NArr.take d (NArr.flat a) s inds 0) ?_ oob hs he h
  intro β γ _ _ f hf d a
  have e := take_natural s inds 0 β γ f hf d (NArr.flat a)
  dsimp only at e ⊢
  rw [flat_map, e]

/-- **C76, scalar classes, `concat` and `concatenate`.** -/
theorem concat_default_scalar_partial {b : List Nat} {bs : List (List Nat)} {c : Cls α} {x : Tree α} {xs : List (Tree α)} (hs : c.Scalar)
    (he : c.HasEntry) (h : ConfAll c (b :: bs) (x :: xs)) :
    dcConcat none c (x :: xs) = (concatAxis none (recordsAll (b :: bs) (x :: xs))).map (fieldsOf c) := by
  refine mapN_records (F := fun _ _ as => concatAxis none as) ?_ hs he h
  intro β γ _ _ f hf as
  have e := concatenate_natural 0 β γ f hf (as.map NArr.flat)
  unfold concatAxis
  dsimp only at e ⊢
  rw [← e]
  rw [List.map_map, List.map_map]
  rfl

/-- On batches of a class of scalar fields every function of a list does what the `jax.numpy` function of the same name does
to the arrays of records. -/
theorem list_like_arrays (fn : ListFn) {cid : Nat} {bs : List (List Nat)} {xs : List (Tree α)} (hs : (env cid).Scalar) (hne : env cid ≠ .nil)
    (hc : (env cid).HasFields) (h2 : 2 ≤ xs.length) (h : ConfAll (env cid) bs xs) (hb : bs.head? ≠ some []) :
    fn.call env (xs.map (Val.inst cid)) = ret (Val.inst cid) ((fn.onArrays (recordsAll bs xs)).map (fieldsOf (env cid))) := by
  have hx : xs ≠ [] := fun e => by rw [e] at h2; exact Nat.not_succ_le_zero _ h2
  have he := hasEntry_of_fields hne hc
  rw [list_insts fn cid hx]
  have hcat : ∀ k : Option Int, dcConcat k (env cid) xs = (concatAxis k (recordsAll bs xs)).map (fieldsOf (env cid)) := by
    intro k
    cases k with
    | some k =>
      have e := scalar_concat hs hne hc h2 h k
      rw [if_neg hb] at e
      exact e
    | none =>
      match bs, xs, hx with
      | b :: bs, x :: xs, _ => exact concat_default_scalar_partial hs he h
      | [], _ :: _, _ => exact h.elim
  congr 1
  cases fn with
  | concat k => exact hcat k
  | concatenate k => exact hcat k
  | stack k => exact scalar_stack hs hne hc h2 h k
  | vstack => exact scalar_vstack hs he hx h
  | hstack => exact scalar_hstack hs he hx h
  | dstack => exact scalar_dstack hs he hx h
  | columnStack => exact scalar_columnStack hs he hx h

theorem unravel_append {b r : List Nat} {v : Nat} (h : v < size b * size r) :
    unravel (b ++ r) v = unravel b (v / size r) ++ unravel r (v % size r) := by
  have hr : 0 < size r := by
    rcases Nat.eq_zero_or_pos (size r) with h0 | h0
    · rw [h0] at h; omega
    · exact h0
  have h1 : InB b (unravel b (v / size r)) := unravel_inB (Nat.div_lt_of_lt_mul (by rw [Nat.mul_comm]; exact h))
  have h2 : InB r (unravel r (v % size r)) := unravel_inB (Nat.mod_lt _ hr)
  have e := unravel_ravel (h1.append h2)
  rw [ravel_append h1.length, ravel_unravel (Nat.div_lt_of_lt_mul (by rw [Nat.mul_comm]; exact h)),
    ravel_unravel (Nat.mod_lt _ hr), Nat.mul_comm, Nat.div_add_mod] at e
  exact e

/-- **C76, any class.**  On a field with batch shape `b` and intrinsic shape `r` the default `take` has the shape of the index
array, and for the index `v` it gives component `v mod m` of record `v div m`, where `m` is the number of entries of `r`: not
record `v`, unless `m = 1`. -/
theorem take_default_entry (oob : α) {a : NArr α} {b r s : List Nat} (hs : a.shape = b ++ r) (h0 : 0 < size b * size r) (inds : List Int) :
    ∃ z, NArr.take oob (NArr.flat a) s inds 0 = some z ∧ z.shape = s ∧
      ∀ (q : List Nat) (v : Nat), InB s q → inds[ravel s q]? = some (v : Int) → v < size b * size r →
        z.get q = (NArr.sub (unravel b (v / size r)) a).get (unravel r (v % size r)) := by
  have hsz : size a.shape = size b * size r := by rw [hs, size_append]
  obtain ⟨z, h1, h2, h3, h4⟩ := take_spec (a := NArr.flat a) (oob := oob) (b := [size a.shape]) (s := s) (r := []) (inds := inds)
    (ax := 0) (n := size a.shape) rfl rfl (by omega)
  refine ⟨z, h1, by simpa using h3, ?_⟩
  · intro q v hq hi hv
    have hr : 0 < size r := by
      rcases Nat.eq_zero_or_pos (size r) with h0 | h0
      · rw [h0] at hv; omega
      · exact h0
    have h1 : InB b (unravel b (v / size r)) := unravel_inB (Nat.div_lt_of_lt_mul (by rw [Nat.mul_comm]; exact hv))
    have h2 : InB r (unravel r (v % size r)) := unravel_inB (Nat.mod_lt _ hr)
    have hg : inds.getD (ravel s q) 0 = (v : Int) := by rw [List.getD_eq_getElem?_getD, hi]; rfl
    have hw : wrapIdx (size a.shape) (inds.getD (ravel s q) 0) = v := by
      rw [hg]
      unfold wrapIdx
      rw [if_neg (by omega)]
    have h5 := h4 [] q [] trivial hq trivial v (by omega) hw
    have h6 : z.get q = (NArr.flat a).get [v] := by
      have e := congrArg (fun (t : NArr α) => t.get []) h5
      have hq0 : InB ([size a.shape].take 0 ++ s ++ [size a.shape].drop (0 + 1)) ([] ++ q ++ []) := by simpa using hq
      have hv0 : InB [size a.shape] ([] ++ v :: []) := ⟨by omega, trivial⟩
      have e1 := NArr.get_sub (i := []) h3 hq0 trivial
      have e2 := NArr.get_sub (a := NArr.flat a) (b := [size a.shape]) (r := []) (i := []) rfl hv0 trivial
      rw [e1, e2] at e
      simpa using e
    rw [h6]
    have h3 : (NArr.sub (unravel b (v / size r)) a).get (unravel r (v % size r)) =
        a.get (unravel b (v / size r) ++ unravel r (v % size r)) := NArr.get_sub hs h1 h2
    rw [h3, ← unravel_append hv]
    show a.data.getD _ _ = a.data.getD _ _
    congr 1
    rw [hs, ravel_unravel (by rw [size_append]; exact hv)]
    simp [NArr.flat, ravel]

/-- **`take` on a plain array** with entries, whatever its shape: without an axis the indices address the entries in row-major order and the result has the
shape of the index array. -/
theorem take_arrays_default (oob : α) (a : NArr α) (s : List Nat) (inds : List Int) (h0 : 0 < size a.shape) :
    ∃ z, Xnp.take oob (.arr a) s inds none = .ok (.arr z) ∧ z.shape = s ∧
      ∀ (q : List Nat) (v : Nat), InB s q → inds[ravel s q]? = some (v : Int) → v < size a.shape →
        z.get q = a.get (unravel a.shape v) := by
  obtain ⟨z, h1, h2, h3⟩ := take_default_entry oob (a := a) (b := a.shape) (r := []) (s := s) (by simp) (by simpa [size] using h0) inds
  refine ⟨z, by simp [Xnp.take, h1, ret], h2, fun q v hq hi hv => ?_⟩
  have hz : size ([] : List Nat) = 1 := rfl
  have := h3 q v hq hi (by rw [hz]; omega)
  rw [hz, Nat.div_one] at this
  rw [this]
  have hg := NArr.get_sub (a := a) (b := a.shape) (r := []) (j := unravel a.shape v) (i := unravel [] (v % 1)) (by simp) (unravel_inB hv)
    (by trivial)
  rw [hg]
  congr 1
  simp [unravel]

/-- Non-vacuity: entry 3 of a (2, 2) array. -/
example : ∃ z, Xnp.take (0 : Nat) (.arr ⟨[2, 2], [5, 6, 7, 8]⟩) [1] [3] none = .ok (.arr z) ∧ z.data = [8] := ⟨_, rfl, by decide +kernel⟩

/-- A class with a scalar and a vector field, and a batch of two records: (0, [10, 11]) and (1, [20, 21]). -/
def demoC : Cls Nat := .leaf "id" [] (fun _ => ⟨[], [0]⟩) (.leaf "pos" [2] (fun _ => ⟨[], [0]⟩) .nil)
def demoX : Tree Nat := .leaf "id" ⟨[2], [0, 1]⟩ (.leaf "pos" ⟨[2, 2], [10, 11, 20, 21]⟩ .nil)

theorem demo_conf : Conf [2] demoC demoX := by
  refine ⟨rfl, ⟨rfl, rfl⟩, rfl, ⟨rfl, rfl⟩, trivial⟩

/-- **C76 is false in general.**  `take(x, [1])` does not return record 1: it succeeds, pairs `id` 1 with component 1 of the
vector of record 0, and the result is unstructured; so is `concat([x, x], axis=None)`. -/
theorem axis_none_false :
    takeTree 0 demoX [1] [1] none = some (.leaf "id" ⟨[1], [1]⟩ (.leaf "pos" ⟨[1], [11]⟩ .nil)) ∧
    takeTree 0 demoX [1] [1] (some 0) = some (.leaf "id" ⟨[1], [1]⟩ (.leaf "pos" ⟨[1, 2], [20, 21]⟩ .nil)) ∧
    (takeTree 0 demoX [1] [1] none).bind (structuredType demoC) = some .unstructured ∧
    (dcConcat none demoC [demoX, demoX]).bind (structuredType demoC) = some .unstructured := by decide +kernel

/-- Non-vacuity of the dispatch theorems. -/
example :
    (ListFn.concat (some 0)).call (fun _ => demoC) [.inst 0 demoX, .inst 0 demoX] =
      .ok (.inst 0 (.leaf "id" ⟨[4], [0, 1, 0, 1]⟩ (.leaf "pos" ⟨[4, 2], [10, 11, 20, 21, 10, 11, 20, 21]⟩ .nil))) ∧
    ListFn.vstack.call (fun _ => demoC) [.arr ⟨[2], [1, 2]⟩, .arr ⟨[2], [3, 4]⟩] = .ok (.arr ⟨[2, 2], [1, 2, 3, 4]⟩) ∧
    (ListFn.stack 0).call (fun _ => demoC) [.arr ⟨[2], [1, 2]⟩, .inst 0 demoX] = .error .typeError ∧
    (ListFn.stack 0).call (fun _ => demoC) [.inst 0 demoX, .inst 1 demoX] = .error .raised := by
  refine ⟨?_, ?_, ?_, ?_⟩ <;> rfl

/-- Non-vacuity of the theorems for scalar classes. -/
example : demoScalar.Scalar ∧ demoScalar.HasEntry ∧ Conf [2, 3] demoScalar demoScalarX ∧
    takeTree 0 demoScalarX [2] [5, -6] none =
      some (.leaf "a" ⟨[2], [5, 0]⟩ (.nested "n" (.leaf "b" ⟨[2], [15, 10]⟩ .nil) .nil)) :=
  ⟨demoScalar_ok.1, hasEntry_of_fields demoScalar_ok.2.1 demoScalar_ok.2.2.1, demoScalar_ok.2.2.2, by decide +kernel⟩

/-- `where` of arrays: the three arrays are broadcast against each other, and the condition selects entry by entry. -/
theorem where_arrays {cond : NArr Bool} {a b : NArr α} {u : List Nat} (hu : NArr.bcastAll [cond.shape, a.shape, b.shape] = some u) :
    ∃ z, «where» cond (some (.arr a)) (some (.arr b)) false = .ok (.arr z) ∧ z.shape = u ∧
      ∀ i, InB u i → z.get i = if cond.get (bcastSrc cond.shape i) then a.get (bcastSrc a.shape i) else b.get (bcastSrc b.shape i) := by
  have hb := bcastAll_bcast hu
  have hc : ∀ {γ : Type} [Inhabited γ] (x : NArr γ), Bcast x.shape u → NArr.broadcastTo x u = some (ofFn u fun i => x.get (bcastSrc x.shape i)) := by
    intro γ _ x h
    unfold NArr.broadcastTo
    rw [if_pos ⟨h.1, h.2⟩]
  refine ⟨whereSame (ofFn u fun i => cond.get (bcastSrc cond.shape i)) (ofFn u fun i => a.get (bcastSrc a.shape i))
    (ofFn u fun i => b.get (bcastSrc b.shape i)), ?_, rfl, ?_⟩
  · show ret Val.arr (whereArr cond a b) = _
    unfold whereArr
    rw [hu, Option.bind_some, hc cond (hb _ (by simp)), Option.bind_some, hc a (hb _ (by simp)), Option.bind_some, hc b (hb _ (by simp))]
    rfl
  · intro i hi
    unfold whereSame
    rw [get_ofFn _ (show InB (ofFn u _).shape i from hi), get_ofFn _ hi, get_ofFn _ hi, get_ofFn _ hi]

example : «where» ⟨[2], [true, false]⟩ (some (.arr ⟨[2, 2], [1, 2, 3, 4]⟩)) (some (.arr (⟨[], [0]⟩ : NArr Nat))) false = .ok (.arr ⟨[2, 2], [1, 0, 3, 0]⟩) := by
  rfl

/-- Non-vacuity of `list_like_arrays`, and what it says for `hstack` of two batches of shape `[2, 3]`. -/
example : ConfAll demoScalar [[2, 3], [2, 3]] [demoScalarX, demoScalarX] ∧
    (ListFn.hstack.onArrays (recordsAll [[2, 3], [2, 3]] [demoScalarX, demoScalarX])).map (·.shape) = some [2, 6] :=
  ⟨⟨demoScalar_ok.2.2.2, demoScalar_ok.2.2.2, trivial⟩, by decide +kernel⟩

end Xnp
