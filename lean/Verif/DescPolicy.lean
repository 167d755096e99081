import Verif.DescProps
import Verif.AggProps

/-!
# C56: the bit-packing policy
-/

namespace Desc

open Io (DType Arr)

/-- Every primitive field at any depth declares `bits`, and every nested field is scalar. -/
def Cls.Packable : Cls → Prop
  | .nil => True
  | .leaf _ d rest => d.bits ≠ none ∧ rest.Packable
  | .nested _ ish _ _ sub rest => ish = [] ∧ sub.Packable ∧ rest.Packable

/-- There is a primitive field at some depth. -/
def Cls.HasLeaf : Cls → Prop
  | .nil => False
  | .leaf _ _ _ => True
  | .nested _ _ _ _ sub rest => sub.HasLeaf ∨ rest.HasLeaf

/-- No nested class has fields without having a primitive field at some depth. -/
def Cls.NestedOk : Cls → Prop
  | .nil => True
  | .leaf _ _ rest => rest.NestedOk
  | .nested _ _ _ _ sub rest => (sub = .nil ∨ sub.HasLeaf) ∧ sub.NestedOk ∧ rest.NestedOk

/-- The usual classes: the class and the classes nested in it are empty, or have a primitive field at some depth. -/
def Cls.Usual (c : Cls) : Prop := (c = .nil ∨ c.HasLeaf) ∧ c.NestedOk

theorem allBits_iff : ∀ c : Cls, allBits c = true ↔ c.Packable
  | .nil => by simp [allBits, Cls.Packable]
  | .leaf _ d rest => by
    simp only [allBits, Cls.Packable, Bool.and_eq_true, allBits_iff rest]
    cases d.bits <;> simp
  | .nested _ ish _ _ sub rest => by
    simp only [allBits, Cls.Packable, Bool.and_eq_true, allBits_iff sub, allBits_iff rest, decide_eq_true_eq, and_assoc]

theorem aggCheck_iff : ∀ c : Cls, aggCheck c = .ok () ↔ c.Packable
  | .nil => by simp [aggCheck, Cls.Packable]
  | .leaf _ d rest => by
    have ih := aggCheck_iff rest
    simp only [aggCheck, Cls.Packable]
    cases hd : d.bits with
    | none => simp
    | some b => simp [ih]
  | .nested _ ish _ _ sub rest => by
    have ih1 := aggCheck_iff sub
    have ih2 := aggCheck_iff rest
    simp only [aggCheck, Cls.Packable]
    by_cases h : ish = []
    · rw [if_pos h]
      rcases hs : aggCheck sub with e | u
      · rw [hs] at ih1
        simp only
        exact ⟨fun h => (by cases h), fun h' => absurd (ih1.2 h'.2.1) (by simp)⟩
      · rw [hs] at ih1
        simp only
        rw [ih2]
        exact ⟨fun h' => ⟨h, ih1.1 rfl, h'⟩, fun h' => h'.2.2⟩
    · rw [if_neg h]
      exact ⟨fun h => (by cases h), fun h' => absurd h'.1 h⟩

theorem width_eq_zero : ∀ {c : Cls}, c.width = 0 ↔ c = .nil
  | .nil => by simp [Cls.width]
  | .leaf _ _ _ => by simp [Cls.width]
  | .nested _ _ _ _ _ _ => by simp [Cls.width]

/-- The view class: same fields, no `bits`. -/
def viewCls : Cls → Cls
  | .nil => .nil
  | .leaf n d rest => .leaf n (viewFD d) (viewCls rest)
  | .nested n _ _ _ sub rest => .nested n [] 0 false (viewCls sub) (viewCls rest)

theorem viewCls_nil : ∀ {c : Cls}, viewCls c = .nil ↔ c = .nil
  | .nil => by simp [viewCls]
  | .leaf _ _ _ => by simp [viewCls]
  | .nested _ _ _ _ _ _ => by simp [viewCls]

theorem viewCls_hasLeaf : ∀ {c : Cls}, (viewCls c).HasLeaf ↔ c.HasLeaf
  | .nil => Iff.rfl
  | .leaf _ _ _ => Iff.rfl
  | .nested _ _ _ _ sub rest => by simp only [viewCls, Cls.HasLeaf, viewCls_hasLeaf (c := sub), viewCls_hasLeaf (c := rest)]

theorem viewCls_not_packable : ∀ {c : Cls}, c.HasLeaf → ¬ (viewCls c).Packable
  | .leaf _ d _, _, h => h.1 rfl
  | .nested _ _ _ _ sub rest, hl, h => by
    rcases hl with hl | hl
    · exact viewCls_not_packable hl h.2.1
    · exact viewCls_not_packable hl h.2.2

theorem viewCls_packable_of_leafless : ∀ {c : Cls}, ¬ c.HasLeaf → (viewCls c).Packable
  | .nil, _ => trivial
  | .leaf _ _ _, h => absurd trivial h
  | .nested _ _ _ _ _ _, h => ⟨rfl, viewCls_packable_of_leafless fun h' => h (Or.inl h'), viewCls_packable_of_leafless fun h' => h (Or.inr h')⟩

/-- A class that automatic mode leaves unpacked. -/
theorem decorate_plain {fuel : Nat} {c : Cls} (h : c = .nil ∨ ¬ c.Packable) : decorate (fuel + 1) .auto false c = .ok ⟨false, true⟩ := by
  unfold decorate
  simp only [effective]
  rw [if_neg]
  · rfl
  · rintro (h' | h')
    · cases h'
    · simp only [Bool.and_eq_true, decide_eq_true_eq, allBits_iff] at h'
      rcases h with rfl | h
      · exact h'.1.1 rfl
      · exact h h'.2

theorem viewFields_ok {fuel : Nat} : ∀ {c : Cls}, c.NestedOk → viewFields (decorate (fuel + 1) .auto false) c = .ok (viewCls c)
  | .nil, _ => rfl
  | .leaf _ _ rest, h => by
    rw [viewFields, viewFields_ok (c := rest) h, viewCls]
  | .nested _ _ _ _ sub rest, h => by
    rw [viewFields, viewFields_ok (c := sub) h.2.1]
    simp only
    rw [decorate_plain, viewFields_ok (c := rest) h.2.2, viewCls]
    rcases h.1 with rfl | h1
    · exact Or.inl rfl
    · exact Or.inr (viewCls_not_packable h1)

/-- What `decorate` does with a usual class, once the mode is known. -/
theorem decorate_usual {fuel : Nat} {mode m : Mode} {flag : Bool} {c : Cls} (hu : c.Usual) (hm : effective mode flag = .ok m) :
    (m = .aggregate ∨ (m = .auto ∧ c ≠ .nil ∧ c.Packable) → c.Packable → decorate (fuel + 2) mode flag c = .ok ⟨true, decide (m ≠ .off)⟩) ∧
    (m = .aggregate → ¬ c.Packable → ∃ e, decorate (fuel + 2) mode flag c = .error e ∧ e ≠ .recursion) ∧
    (m ≠ .aggregate → ¬ (m = .auto ∧ c ≠ .nil ∧ c.Packable) → decorate (fuel + 2) mode flag c = .ok ⟨false, decide (m ≠ .off)⟩) := by
  have hcond : (m = .aggregate ∨ (decide (c.width ≠ 0) && decide (m = .auto) && allBits c) = true) ↔
      (m = .aggregate ∨ (m = .auto ∧ c ≠ .nil ∧ c.Packable)) := by
    simp only [Bool.and_eq_true, decide_eq_true_eq, allBits_iff, ne_eq, width_eq_zero]
    constructor
    · rintro (h | h)
      · exact Or.inl h
      · exact Or.inr ⟨h.1.2, h.1.1, h.2⟩
    · rintro (h | h)
      · exact Or.inl h
      · exact Or.inr ⟨⟨h.2.1, h.1⟩, h.2.2⟩
  refine ⟨fun h hp => ?_, fun h hp => ?_, fun h1 h2 => ?_⟩
  · rw [decorate, hm]
    dsimp only
    rw [if_pos (hcond.2 h), (aggCheck_iff c).2 hp]
    dsimp only
    rw [viewFields_ok hu.2]
    dsimp only
    rw [decorate_plain]
    rcases hu.1 with rfl | hl
    · exact Or.inl rfl
    · exact Or.inr (viewCls_not_packable hl)
  · rw [decorate, hm]
    dsimp only
    rw [if_pos (Or.inl h)]
    rcases hc : aggCheck c with e | u
    · refine ⟨e, rfl, ?_⟩
      rintro rfl
      exact absurd hc (noRec c)
    · exact absurd ((aggCheck_iff c).1 hc) hp
  · rw [decorate, hm]
    dsimp only
    rw [if_neg (fun h => (hcond.1 h).elim h1 h2)]
where
  noRec : ∀ c : Cls, aggCheck c ≠ .error .recursion
  | .nil => by simp [aggCheck]
  | .leaf _ d rest => by
    simp only [aggCheck]
    split
    · exact noRec rest
    · simp
  | .nested _ ish _ _ sub rest => by
    simp only [aggCheck]
    split
    · have := noRec sub
      rcases hs : aggCheck sub with e | u
      · rw [hs] at this; simpa using this
      · exact noRec rest
    · simp

/-- **C56.**  `bitpack="auto"` (the default) never raises for a usual class, and adds `.packed` exactly when the class has fields, every
primitive field at any depth declares `bits` and every nested field is scalar.  (Two levels of recursion suffice.) -/
theorem auto_policy_partial {fuel : Nat} {c : Cls} (hu : c.Usual) :
    ∃ o, decorate (fuel + 2) .auto false c = .ok o ∧ o.accessors = true ∧ (o.packed = true ↔ c ≠ .nil ∧ c.Packable) := by
  obtain ⟨h1, _, h3⟩ := decorate_usual (fuel := fuel) (mode := .auto) (flag := false) hu rfl
  by_cases h : c ≠ .nil ∧ c.Packable
  · exact ⟨_, h1 (Or.inr ⟨rfl, h⟩) h.2, rfl, fun _ => h, fun _ => rfl⟩
  · exact ⟨_, h3 (by simp) (fun h' => h h'.2), rfl, fun h' => (by cases h'), fun h' => absurd h' h⟩

/-- **C56.**  `bitpack="aggregate"`, and `aggregate_bitpack=True`, add `.packed` when the class qualifies and raise (at the declaration) when it
does not. -/
theorem aggregate_policy_partial {fuel : Nat} {mode : Mode} {flag : Bool} {c : Cls} (hu : c.Usual) (hm : mode = .aggregate ∨ (mode = .auto ∧ flag = true)) :
    (c.Packable → decorate (fuel + 2) mode flag c = .ok ⟨true, true⟩) ∧ (¬ c.Packable → ∃ e, decorate (fuel + 2) mode flag c = .error e ∧ e ≠ .recursion) := by
  have he : effective mode flag = .ok .aggregate := by
    rcases hm with rfl | ⟨rfl, rfl⟩
    · cases flag <;> rfl
    · rfl
  obtain ⟨h1, h2, _⟩ := decorate_usual (fuel := fuel) hu he
  exact ⟨fun h => h1 (Or.inl rfl) h, fun h => h2 rfl h⟩

/-- **C56.**  `bitpack="field"` adds the accessors of packed tensors only, `"off"` nothing; for every class. -/
theorem field_off_policy {fuel : Nat} (c : Cls) :
    decorate (fuel + 1) .field false c = .ok ⟨false, true⟩ ∧ decorate (fuel + 1) .off false c = .ok ⟨false, false⟩ := by
  constructor <;> (unfold decorate; simp [effective])

/-- **C56.**  An unknown mode, and `aggregate_bitpack=True` together with `"field"` or `"off"`, are refused. -/
theorem policy_conflicts {fuel : Nat} (c : Cls) : (∀ flag, decorate (fuel + 1) .other flag c = .error .valueError) ∧
    decorate (fuel + 1) .field true c = .error .valueError ∧ decorate (fuel + 1) .off true c = .error .valueError := by
  refine ⟨fun flag => ?_, rfl, rfl⟩
  unfold decorate
  simp [effective]

/-- Field names. -/
def Cls.names : Cls → List String
  | .nil => []
  | .leaf n _ rest => n :: rest.names
  | .nested n _ _ _ _ rest => n :: rest.names

/-- Distinct field names in every class (a Python class body gives them). -/
def Cls.NamesOk : Cls → Prop
  | .nil => True
  | .leaf n _ rest => n ∉ rest.names ∧ rest.NamesOk
  | .nested n _ _ _ sub rest => n ∉ rest.names ∧ sub.NamesOk ∧ rest.NamesOk

theorem aggCls_names : ∀ c : Cls, (aggCls c).names = c.names
  | .nil => rfl
  | .leaf _ _ rest => by simp only [aggCls, Agg.Cls.names, Cls.names, aggCls_names rest]
  | .nested _ _ _ _ _ rest => by simp only [aggCls, Agg.Cls.names, Cls.names, aggCls_names rest]

/-- The packing code gets a well-formed class: bit counts within 1..32 (the constructor of descriptors checks them). -/
theorem packable_wf : ∀ {c : Cls}, c.MadeAll → c.Packable → c.NamesOk → (aggCls c).Wf
  | .nil, _, _, _ => trivial
  | .leaf n d rest, hm, hp, hn => by
    have hb : ∃ b, d.bits = some b := Option.ne_none_iff_exists'.1 hp.1
    obtain ⟨b, hb⟩ := hb
    have := (made_facts hm.1).2.1 b hb
    refine ⟨by rw [aggCls_names]; exact hn.1, ?_, ?_, packable_wf hm.2 hp.2 hn.2⟩
    · rw [hb]; exact this.1
    · rw [hb]; exact this.2
  | .nested n ish cid v sub rest, hm, hp, hn =>
    ⟨by rw [aggCls_names]; exact hn.1, packable_wf hm.1 hp.2.1 hn.2.1, packable_wf hm.2 hp.2.2 hn.2.2⟩

/-! ### The exception: classes without primitive fields -/

theorem leafless_step {fuel : Nat} (ih : ∀ c : Cls, ¬ c.HasLeaf → c ≠ .nil → c.Packable → decorate fuel .auto false c = .error .recursion) :
    ∀ c : Cls, ¬ c.HasLeaf → viewFields (decorate fuel .auto false) c = .ok (viewCls c) ∨ viewFields (decorate fuel .auto false) c = .error .recursion
  | .nil, _ => Or.inl rfl
  | .leaf _ _ _, h => absurd trivial h
  | .nested n ish cid v sub rest, h => by
    have h1 : ¬ sub.HasLeaf := fun h' => h (Or.inl h')
    have h2 : ¬ rest.HasLeaf := fun h' => h (Or.inr h')
    have hsub := leafless_step ih sub h1
    have hrest := leafless_step ih rest h2
    rw [viewFields]
    rcases hsub with hs | hs
    · rw [hs]
      dsimp only
      have hdec : decorate fuel .auto false (viewCls sub) = .error .recursion ∨ ∃ o, decorate fuel .auto false (viewCls sub) = .ok o := by
        cases fuel with
        | zero => exact Or.inl rfl
        | succ f =>
          by_cases hn : sub = .nil
          · subst hn; exact Or.inr ⟨_, decorate_plain (Or.inl rfl)⟩
          · exact Or.inl (ih _ (fun h' => h1 (viewCls_hasLeaf.1 h')) (fun h' => hn (viewCls_nil.1 h')) (viewCls_packable_of_leafless h1))
      rcases hdec with hd | ⟨o, hd⟩
      · rw [hd]; exact Or.inr rfl
      · rw [hd]
        dsimp only
        rcases hrest with hr | hr
        · rw [hr]; exact Or.inl rfl
        · rw [hr]; exact Or.inr rfl
    · rw [hs]; exact Or.inr rfl

/-- **Automatic mode does not terminate on a class that has fields but no primitive field** (only scalar nested fields of empty classes): the
view class qualifies for packing again, and so on; Python raises `RecursionError` whatever the size of its stack. -/
theorem auto_diverges : ∀ (fuel : Nat) (c : Cls), ¬ c.HasLeaf → c ≠ .nil → c.Packable → decorate fuel .auto false c = .error .recursion
  | 0, _, _, _, _ => rfl
  | fuel + 1, c, hl, hn, hp => by
    have ih := auto_diverges fuel
    rw [decorate]
    simp only [effective]
    have hw : c.width ≠ 0 := fun h => hn (width_eq_zero.1 h)
    rw [if_pos (Or.inr (by simp only [Bool.and_eq_true, decide_eq_true_eq, allBits_iff]; exact ⟨⟨hw, trivial⟩, hp⟩)), (aggCheck_iff c).2 hp]
    dsimp only
    rcases leafless_step ih c hl with h | h
    · rw [h]
      dsimp only
      rw [ih _ (fun h' => hl (viewCls_hasLeaf.1 h')) (fun h' => hn (viewCls_nil.1 h')) (viewCls_packable_of_leafless hl)]
    · rw [h]

/-- Non-trivial cases. -/
def bitsFD (b : Nat) : FD := { u8 [2] with bits := some b }
def packCls : Cls := .leaf "a" (bitsFD 3) (.nested "in" [] 1 false (.leaf "x" (bitsFD 1) .nil) .nil)
def halfCls : Cls := .leaf "a" (bitsFD 3) (.leaf "b" (u8 []) .nil)

example : packCls.Usual ∧ packCls ≠ .nil ∧ packCls.Packable := by
  refine ⟨⟨Or.inr trivial, Or.inr trivial, trivial, trivial⟩, fun h => (by cases h), ?_, rfl, ⟨?_, trivial⟩, trivial⟩ <;> simp [bitsFD]
example : decorate 2 .auto false packCls = .ok ⟨true, true⟩ := by rfl
example : halfCls.Usual ∧ ¬ halfCls.Packable := ⟨⟨Or.inr trivial, trivial⟩, fun h => h.2.1 rfl⟩
example : decorate 5 .auto false halfCls = .ok ⟨false, true⟩ := by rfl
example : decorate 5 .aggregate false halfCls = .error .valueError := by rfl
example : (¬ (Cls.nested "in" [] 1 false .nil .nil).HasLeaf) ∧ (Cls.nested "in" [] 1 false .nil .nil).Packable := ⟨fun h => h.elim id id, rfl, trivial, trivial⟩
example : packCls.MadeAll := by
  refine ⟨⟨.uint 8, [2], none, some 3, none, none, none, none, none, rfl⟩, ⟨⟨.uint 8, [2], none, some 1, none, none, none, none, none, rfl⟩, trivial⟩, trivial⟩

end Desc
