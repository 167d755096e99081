import Verif.SoAModel

/-!
# Instances of a class with a given batch shape
-/

namespace SoA

open Agg NArr

variable {α : Type}

/-- Every leaf satisfies `P` with the intrinsic shape accumulated on the way down. -/
def ConfP {β : Type} (P : List Nat → β → Prop) : List Nat → Cls α → Inst β → Prop
  | _, .nil, .nil => True
  | e, .leaf n ish _ cr, .leaf n' v r => n = n' ∧ P (e ++ ish) v ∧ ConfP P e cr r
  | e, .nested n ish cs cr, .nested n' x r => n = n' ∧ ConfP P (e ++ ish) cs x ∧ ConfP P e cr r
  | _, _, _ => False

/-- `x` is an instance of class `c` with batch shape `b`: every field has the shape `b` followed by its intrinsic shape, the fields of a
nested instance being preceded by the intrinsic shape of the nested field as well. -/
def Conf (b : List Nat) (c : Cls α) (x : Tree α) : Prop := ConfP (fun r (a : NArr α) => a.Wf ∧ a.shape = b ++ r) [] c x

/-- Record `j` of a batched instance. -/
def item [Inhabited α] (j : List Nat) (x : Tree α) : Tree α := treeMap (sub j) x

variable {β γ : Type}

theorem confP_leaves {P : List Nat → β → Prop} {e : List Nat} {c : Cls α} {x : Inst β} (h : ConfP P e c x) : ∀ v ∈ leaves x, ∃ r, P r v := by
  induction x generalizing e c with
  | nil => intro v hv; cases hv
  | leaf n v rest ih =>
    cases c with
    | nil => exact h.elim
    | nested => exact h.elim
    | leaf =>
      intro w hw
      rcases List.mem_cons.1 hw with rfl | hw
      · exact ⟨_, h.2.1⟩
      · exact ih h.2.2 w hw
  | nested n s rest ih1 ih2 =>
    cases c with
    | nil => exact h.elim
    | leaf => exact h.elim
    | nested =>
      intro w hw
      rcases List.mem_append.1 hw with hw | hw
      · exact ih1 h.2.1 w hw
      · exact ih2 h.2.2 w hw

theorem confP_mapM {P : List Nat → β → Prop} {Q : List Nat → γ → Prop} {f : β → Option γ} {e : List Nat} {c : Cls α} {x : Inst β}
    (h : ConfP P e c x) (hf : ∀ r v, P r v → ∃ w, f v = some w ∧ Q r w) : ∃ z, treeMapM f x = some z ∧ ConfP Q e c z := by
  induction x generalizing e c with
  | nil =>
    cases c with
    | nil => exact ⟨_, rfl, trivial⟩
    | leaf => exact h.elim
    | nested => exact h.elim
  | leaf n v rest ih =>
    cases c with
    | nil => exact h.elim
    | nested => exact h.elim
    | leaf =>
      obtain ⟨w, h1, h2⟩ := hf _ _ h.2.1
      obtain ⟨z, h3, h4⟩ := ih h.2.2
      refine ⟨.leaf n w z, ?_, h.1, h2, h4⟩
      simp only [treeMapM, h1, h3, Option.bind_some, Option.map_some]
  | nested n s rest ih1 ih2 =>
    cases c with
    | nil => exact h.elim
    | leaf => exact h.elim
    | nested =>
      obtain ⟨w, h1, h2⟩ := ih1 h.2.1
      obtain ⟨z, h3, h4⟩ := ih2 h.2.2
      refine ⟨.nested n w z, ?_, h.1, h2, h4⟩
      simp only [treeMapM, h1, h3, Option.bind_some, Option.map_some]

theorem confP_map {P : List Nat → β → Prop} {Q : List Nat → γ → Prop} {f : β → γ} {e : List Nat} {c : Cls α} {x : Inst β}
    (h : ConfP P e c x) (hf : ∀ r v, P r v → Q r (f v)) : ConfP Q e c (treeMap f x) := by
  induction x generalizing e c with
  | nil =>
    cases c with
    | nil => exact trivial
    | leaf => exact h.elim
    | nested => exact h.elim
  | leaf n v rest ih =>
    cases c with
    | nil => exact h.elim
    | nested => exact h.elim
    | leaf => exact ⟨h.1, hf _ _ h.2.1, ih h.2.2⟩
  | nested n s rest ih1 ih2 =>
    cases c with
    | nil => exact h.elim
    | leaf => exact h.elim
    | nested => exact ⟨h.1, ih1 h.2.1, ih2 h.2.2⟩

theorem confP_imp {P Q : List Nat → β → Prop} {e : List Nat} {c : Cls α} {x : Inst β}
    (h : ConfP P e c x) (hf : ∀ r v, P r v → Q r v) : ConfP Q e c x := by
  have := confP_map (f := id) h hf
  rwa [treeMap_id (f := id) fun _ _ => rfl] at this

theorem confP_zip {P : List Nat → β → Prop} {Q : List Nat → γ → Prop} {e : List Nat} {c : Cls α} {x : Inst β} {y : Inst γ}
    (h : ConfP P e c x) (h' : ConfP Q e c y) : ∃ z, zip x y = some z ∧ ConfP (fun r p => P r p.1 ∧ Q r p.2) e c z := by
  induction x generalizing e c y with
  | nil =>
    cases c with
    | nil =>
      cases y with
      | nil => exact ⟨_, rfl, trivial⟩
      | leaf => exact h'.elim
      | nested => exact h'.elim
    | leaf => exact h.elim
    | nested => exact h.elim
  | leaf n v rest ih =>
    cases c with
    | nil => exact h.elim
    | nested => exact h.elim
    | leaf =>
      cases y with
      | nil => exact h'.elim
      | nested => exact h'.elim
      | leaf n' w rest' =>
        obtain ⟨z, h3, h4⟩ := ih h.2.2 h'.2.2
        have e : n = n' := h.1.symm.trans h'.1
        refine ⟨.leaf n (v, w) z, ?_, h.1, ⟨h.2.1, h'.2.1⟩, h4⟩
        simp only [zip, if_pos e, h3, Option.map_some]
  | nested n s rest ih1 ih2 =>
    cases c with
    | nil => exact h.elim
    | leaf => exact h.elim
    | nested =>
      cases y with
      | nil => exact h'.elim
      | leaf => exact h'.elim
      | nested n' s' rest' =>
        obtain ⟨w, h1, h2⟩ := ih1 h.2.1 h'.2.1
        obtain ⟨z, h3, h4⟩ := ih2 h.2.2 h'.2.2
        have e : n = n' := h.1.symm.trans h'.1
        refine ⟨.nested n w z, ?_, h.1, h2, h4⟩
        simp only [zip, if_pos e, h1, h3, Option.map_some, Option.bind_some]

/-- Instances of one class can be transposed; the lists of corresponding leaves satisfy the properties of the instances. -/
theorem confP_transpose {Ps : List (List Nat → β → Prop)} {e : List Nat} {c : Cls α} {x : Inst β}
    {ys : List (Inst β)} {P0 : List Nat → β → Prop} (h : ConfP P0 e c x) (hl : Ps.length = ys.length)
    (h' : ∀ (k : Nat) (y : Inst β) (Q : List Nat → β → Prop), ys[k]? = some y → Ps[k]? = some Q → ConfP Q e c y) :
    ∃ t, transpose x ys = some t ∧ ConfP (fun r l => l.length = ys.length + 1 ∧
      ∀ (k : Nat) (v : β) (Q : List Nat → β → Prop), l[k]? = some v → (P0 :: Ps)[k]? = some Q → Q r v) e c t := by
  induction ys generalizing x Ps P0 with
  | nil =>
    refine ⟨_, rfl, confP_map h fun r v hv => ⟨rfl, fun k w Q hw hQ => ?_⟩⟩
    cases k with
    | zero => simp at hw hQ; subst hw hQ; exact hv
    | succ k => simp at hw
  | cons y ys ih =>
    cases Ps with
    | nil => simp at hl
    | cons Q0 Ps =>
      obtain ⟨t, h1, h2⟩ := ih (h' 0 y Q0 rfl rfl) (by simpa using hl) fun k y Q hy hQ => h' (k + 1) y Q hy hQ
      obtain ⟨z, h3, h4⟩ := confP_zip h h2
      refine ⟨treeMap (fun p => p.1 :: p.2) z, ?_, confP_map h4 fun r p hp => ⟨by simp [hp.2.1], fun k w Q hw hQ => ?_⟩⟩
      · simp only [transpose, h1, h3, Option.bind_some, Option.map_some]
      · cases k with
        | zero => simp at hw hQ; subst hw hQ; exact hp.1
        | succ k => exact hp.2.2 k w Q (by simpa using hw) (by simpa using hQ)

theorem confP_shift {P : List Nat → β → Prop} {e e' : List Nat} {c : Cls α} {x : Inst β} :
    ConfP (fun r v => P (e ++ r) v) e' c x ↔ ConfP P (e ++ e') c x := by
  induction x generalizing e' c with
  | nil => cases c <;> exact Iff.rfl
  | leaf n v rest ih =>
    cases c with
    | nil => exact Iff.rfl
    | nested => exact Iff.rfl
    | leaf => simp only [ConfP]; rw [ih, List.append_assoc]
  | nested n s rest ih1 ih2 =>
    cases c with
    | nil => exact Iff.rfl
    | leaf => exact Iff.rfl
    | nested => simp only [ConfP]; rw [ih1, ih2, List.append_assoc]

theorem conf_nested {b ish : List Nat} {c : Cls α} {x : Tree α} :
    ConfP (fun r (a : NArr α) => a.Wf ∧ a.shape = b ++ r) ish c x ↔ Conf (b ++ ish) c x := by
  unfold Conf
  have := confP_shift (P := fun r (a : NArr α) => a.Wf ∧ a.shape = b ++ r) (e := ish) (e' := []) (c := c) (x := x)
  rw [List.append_nil] at this
  rw [← this]
  simp only [List.append_assoc]

theorem conf_leaves {b : List Nat} {c : Cls α} {x : Tree α} (h : Conf b c x) : ∀ a ∈ leaves x, a.Wf ∧ ∃ r, a.shape = b ++ r := by
  intro a ha
  obtain ⟨r, h1, h2⟩ := confP_leaves h a ha
  exact ⟨h1, r, h2⟩

/-- Leafwise reasoning about `treeMapM`: the result has the new batch shape, and its records are records of the argument. -/
theorem mapM_spec [Inhabited α] {b b' : List Nat} {c : Cls α} {x : Tree α} {f : NArr α → Option (NArr α)} (h : Conf b c x)
    (hf : ∀ r a, a.Wf → a.shape = b ++ r → ∃ w, f a = some w ∧ w.Wf ∧ w.shape = b' ++ r) :
    ∃ z, treeMapM f x = some z ∧ Conf b' c z := by
  obtain ⟨z, h1, h2⟩ := confP_mapM (Q := fun r (a : NArr α) => a.Wf ∧ a.shape = b' ++ r) h fun r v hv => hf r v hv.1 hv.2
  exact ⟨z, h1, h2⟩

theorem mapM_item [Inhabited α] {b : List Nat} {c : Cls α} {x z : Tree α} {f : NArr α → Option (NArr α)} (h : Conf b c x)
    (hz : treeMapM f x = some z) {j j' : List Nat}
    (hf : ∀ r a w, a.Wf → a.shape = b ++ r → f a = some w → sub j w = sub j' a) : item j z = item j' x := by
  refine treeMapM_map hz fun a ha w hw => ?_
  obtain ⟨h1, r, h2⟩ := conf_leaves h a ha
  exact hf r a w h1 h2 hw

/-- Record `j` of an instance of batch shape `b ++ b'` has batch shape `b'`. -/
theorem item_conf [Inhabited α] {b b' j : List Nat} {c : Cls α} {x : Tree α} (h : Conf (b ++ b') c x) (hj : InB b j) : Conf b' c (item j x) := by
  refine confP_map h fun r a ha => ⟨sub_wf _ _, ?_⟩
  rw [sub_shape, ha.2, List.append_assoc, drop_of_inB hj]

theorem item_item [Inhabited α] {b b' j k : List Nat} {c : Cls α} {x : Tree α} (h : Conf (b ++ b') c x) (hj : InB b j) (hk : InB b' k) :
    item k (item j x) = item (j ++ k) x := by
  unfold item
  rw [treeMap_comp]
  refine treeMap_congr fun a ha => ?_
  obtain ⟨_, r, hr⟩ := conf_leaves h a ha
  exact sub_sub (by rw [hr, List.append_assoc]) hj hk

/-- Two instances of a class with the same batch shape and the same records are equal. -/
theorem conf_ext [Inhabited α] {b : List Nat} {c : Cls α} {x y : Tree α} (h : Conf b c x) (h' : Conf b c y)
    (he : ∀ j, InB b j → item j x = item j y) : x = y := by
  unfold Conf at h h'
  generalize hE : ([] : List Nat) = E at h h'
  clear hE
  induction x generalizing c y E with
  | nil =>
    cases c with
    | nil =>
      cases y with
      | nil => rfl
      | leaf => exact h'.elim
      | nested => exact h'.elim
    | leaf => exact h.elim
    | nested => exact h.elim
  | leaf n v rest ih =>
    cases c with
    | nil => exact h.elim
    | nested => exact h.elim
    | leaf =>
      cases y with
      | nil => exact h'.elim
      | nested => exact h'.elim
      | leaf n' w rest' =>
        have hn : n = n' := h.1.symm.trans h'.1
        have hv : v = w := ext_sub h.2.1.1 h'.2.1.1 h.2.1.2 h'.2.1.2 fun j hj => by
          have := he j hj
          simp only [item, treeMap, Inst.leaf.injEq] at this
          exact this.2.1
        have hr : rest = rest' := ih (fun j hj => by
          have := he j hj
          simp only [item, treeMap, Inst.leaf.injEq] at this
          exact this.2.2) E h.2.2 h'.2.2
        rw [hn, hv, hr]
  | nested n s rest ih1 ih2 =>
    cases c with
    | nil => exact h.elim
    | leaf => exact h.elim
    | nested =>
      cases y with
      | nil => exact h'.elim
      | leaf => exact h'.elim
      | nested n' s' rest' =>
        have hn : n = n' := h.1.symm.trans h'.1
        have hv : s = s' := ih1 (fun j hj => by
          have := he j hj
          simp only [item, treeMap, Inst.nested.injEq] at this
          exact this.2.1) _ h.2.1 h'.2.1
        have hr : rest = rest' := ih2 (fun j hj => by
          have := he j hj
          simp only [item, treeMap, Inst.nested.injEq] at this
          exact this.2.2) E h.2.2 h'.2.2
        rw [hn, hv, hr]

end SoA
