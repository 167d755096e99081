import Verif.DescProps

/-!
# C54/C55: `default` with validators and with fill value factories
-/

namespace Desc

open Io (DType Arr)

/-- `a` is the default of the array field `d` for the batch shape `b`: declared dtype, shape `b ++ intrinsic`, and every entry is the fill
value; a factory is called with the full shape and the dtype of the field. -/
structure IsDefault (conv : DType → Fv → Int) (b : List Nat) (d : FD) (a : Arr) : Prop where
  dtype : a.dtype = d.dtype
  shape : a.shape = b ++ d.ish
  size : a.data.length = Bitpack.size a.shape
  fill : ∀ x, d.factory = none → d.fill = some x → ∀ e ∈ a.data, e = conv d.dtype x
  factory : ∀ f, d.factory = some f → ∀ e ∈ a.data, e = conv d.dtype (f (b ++ d.ish) d.dtype)

/-- Every array field of the instance, at any depth, is the default of its descriptor; a nested field with intrinsic shape `s` has batch
shape `b ++ s`. -/
def DefaultOf (conv : DType → Fv → Int) : List Nat → Cls → Val → Prop
  | _, .nil, .nil => True
  | b, .leaf n d rest, .arr n' a r => n' = n ∧ IsDefault conv b d a ∧ DefaultOf conv b rest r
  | b, .nested n ish cid _ sub rest, .obj n' cid' x r => n' = n ∧ cid' = cid ∧ DefaultOf conv (b ++ ish) sub x ∧ DefaultOf conv b rest r
  | _, _, _ => False

/-- In every class that validates (the class itself: `v`), the validators of the array fields accept the default of the field. -/
def Accepts (conv : DType → Fv → Int) : Bool → List Nat → Cls → Prop
  | _, _, .nil => True
  | v, b, .leaf _ d rest => (v = true → ∀ f, d.validator = some f → ∀ a, IsDefault conv b d a → f a = true) ∧ Accepts conv v b rest
  | v, b, .nested _ ish _ v' sub rest => Accepts conv v' (b ++ ish) sub ∧ Accepts conv v b rest

theorem made_fill {d : FD} (h : Made d) : d.factory = none → ∃ x, d.fill = some x := by
  intro hf
  have h1 := (made_facts h)
  cases hd : d.fill with
  | some x => exact ⟨x, rfl⟩
  | none => simp_all

theorem full_isDefault (conv : DType → Fv → Int) (b : List Nat) (d : FD) :
    IsDefault conv b d (full conv (b ++ d.ish) (fillOf d (b ++ d.ish)) d.dtype) := by
  refine ⟨rfl, rfl, by simp [full], ?_, ?_⟩
  · intro x hf hx e he
    have := List.eq_of_mem_replicate he
    rw [this, fillOf, hf, hx]
    rfl
  · intro f hf e he
    have := List.eq_of_mem_replicate he
    rw [this, fillOf, hf]

theorem isDefault_unique {conv : DType → Fv → Int} {b : List Nat} {d : FD} (hm : Made d) {a a' : Arr} (h : IsDefault conv b d a)
    (h' : IsDefault conv b d a') : a = a' := by
  have hl : a.data.length = a'.data.length := by rw [h.size, h'.size, h.shape, h'.shape]
  have hd : ∃ c, (∀ e ∈ a.data, e = c) ∧ ∀ e ∈ a'.data, e = c := by
    cases hf : d.factory with
    | some f => exact ⟨_, h.factory f hf, h'.factory f hf⟩
    | none =>
      obtain ⟨x, hx⟩ := made_fill hm hf
      exact ⟨_, h.fill x hf hx, h'.fill x hf hx⟩
  obtain ⟨c, h1, h2⟩ := hd
  have e1 := List.eq_replicate_of_mem h1
  have e2 := List.eq_replicate_of_mem h2
  have hdd : a.data = a'.data := by rw [e1, e2, hl]
  have hs : a.shape = a'.shape := by rw [h.shape, h'.shape]
  have ht : a.dtype = a'.dtype := by rw [h.dtype, h'.dtype]
  obtain ⟨t, s, l⟩ := a
  obtain ⟨t', s', l'⟩ := a'
  have hdd : l = l' := hdd
  have hs : s = s' := hs
  have ht : t = t' := ht
  rw [hdd, hs, ht]

/-- The validators of the fields of the class itself accept. -/
def TopAccepts (conv : DType → Fv → Int) (b : List Nat) : Cls → Prop
  | .nil => True
  | .leaf _ d rest => (∀ f, d.validator = some f → ∀ a, IsDefault conv b d a → f a = true) ∧ TopAccepts conv b rest
  | .nested _ _ _ _ _ rest => TopAccepts conv b rest

theorem accepts_iff {conv : DType → Fv → Int} {b : List Nat} : ∀ (c : Cls) (v : Bool),
    Accepts conv v b c ↔ Accepts conv false b c ∧ (v = true → TopAccepts conv b c)
  | .nil, v => by simp [Accepts, TopAccepts]
  | .leaf _ d rest, v => by
    have ih := accepts_iff (conv := conv) (b := b) rest v
    simp only [Accepts, TopAccepts, Bool.false_eq_true, false_implies, true_and]
    rw [ih]
    exact ⟨fun h => ⟨h.2.1, fun hv => ⟨h.1 hv, h.2.2 hv⟩⟩, fun h => ⟨fun hv => (h.2 hv).1, h.1, fun hv => (h.2 hv).2⟩⟩
  | .nested _ ish _ v' sub rest, v => by
    have ih := accepts_iff (conv := conv) (b := b) rest v
    simp only [Accepts, TopAccepts]
    rw [ih, and_assoc]

theorem fit_default_iff {conv : DType → Fv → Int} {b : List Nat} : ∀ (c : Cls) (x : Val), c.MadeAll → DefaultOf conv b c x →
    (FieldsFit c x ↔ TopAccepts conv b c)
  | .nil, .nil, _, _ => ⟨fun _ => trivial, fun _ => trivial⟩
  | .leaf _ d rest, .arr _ a r, hm, h => by
    have ih := fit_default_iff rest r hm.2 h.2.2
    refine and_congr ⟨fun hf f hv a' ha' => ?_, fun hf => ⟨h.2.1.dtype, ⟨b, h.2.1.shape⟩, fun f hv => hf f hv a h.2.1⟩⟩ ih
    rw [← isDefault_unique hm.1 h.2.1 ha']
    exact hf.2.2 f hv
  | .nested _ _ _ _ _ rest, .obj _ _ _ r, hm, h => by
    have ih := fit_default_iff rest r hm.2 h.2.2.2
    exact ⟨fun hf => ih.1 hf.2, fun hf => ⟨h.2.1, ih.2 hf⟩⟩
  | .nil, .arr _ _ _, _, h => h.elim
  | .nil, .obj _ _ _ _, _, h => h.elim
  | .nil, .other _ _, _, h => h.elim
  | .leaf _ _ _, .nil, _, h => h.elim
  | .leaf _ _ _, .obj _ _ _ _, _, h => h.elim
  | .leaf _ _ _, .other _ _, _, h => h.elim
  | .nested _ _ _ _ _ _, .nil, _, h => h.elim
  | .nested _ _ _ _ _ _, .arr _ _ _, _, h => h.elim
  | .nested _ _ _ _ _ _, .other _ _, _, h => h.elim

theorem construct_default_iff {conv : DType → Fv → Int} {b : List Nat} {v : Bool} {c : Cls} {x : Val} (hm : c.MadeAll)
    (h : DefaultOf conv b c x) : (construct v c x = .ok x ∧ (v = true → TopAccepts conv b c)) ∨
      ((∃ e, construct v c x = .error e) ∧ ¬ (v = true → TopAccepts conv b c)) := by
  cases v with
  | false => exact Or.inl ⟨rfl, by simp⟩
  | true =>
    have h1 := fit_default_iff c x hm h
    have h2 := validated_constructor c x
    by_cases hf : FieldsFit c x
    · exact Or.inl ⟨h2.1 hf, fun _ => h1.1 hf⟩
    · exact Or.inr ⟨h2.2 hf, fun hn => hf (h1.2 (hn rfl))⟩

theorem default_go_iff {conv : DType → Fv → Int} : ∀ (c : Cls) (b : List Nat), c.MadeAll →
    (∃ x, default.go conv c b = .ok x ∧ DefaultOf conv b c x ∧ Accepts conv false b c) ∨
      ((∃ e, default.go conv c b = .error e) ∧ ¬ Accepts conv false b c)
  | .nil, b, _ => Or.inl ⟨.nil, rfl, trivial, trivial⟩
  | .leaf n d rest, b, hm => by
    rw [default.go]
    rcases default_go_iff (conv := conv) rest b hm.2 with ⟨r, hr, hd, ha⟩ | ⟨⟨e, he⟩, ha⟩
    · rw [hr]
      exact Or.inl ⟨_, rfl, ⟨rfl, full_isDefault conv b d, hd⟩, ⟨by simp, ha⟩⟩
    · rw [he]
      exact Or.inr ⟨⟨e, rfl⟩, fun h => ha h.2⟩
  | .nested n ish cid v sub rest, b, hm => by
    rw [default.go]
    have hacc := accepts_iff (conv := conv) (b := b ++ ish) sub v
    rcases default_go_iff (conv := conv) sub (b ++ ish) hm.1 with ⟨x, hx, hdx, hax⟩ | ⟨⟨e, he⟩, ha⟩
    · rw [hx]
      simp only
      rcases construct_default_iff (v := v) hm.1 hdx with ⟨hc, hv⟩ | ⟨⟨e, he⟩, hv⟩
      · rw [hc]
        simp only
        rcases default_go_iff (conv := conv) rest b hm.2 with ⟨r, hr, hd, ha⟩ | ⟨⟨e, he⟩, ha⟩
        · rw [hr]
          exact Or.inl ⟨_, rfl, ⟨rfl, rfl, hdx, hd⟩, hacc.2 ⟨hax, hv⟩, ha⟩
        · rw [he]
          exact Or.inr ⟨⟨e, rfl⟩, fun h => ha h.2⟩
      · rw [he]
        exact Or.inr ⟨⟨e, rfl⟩, fun h => hv (hacc.1 h.1).2⟩
    · rw [he]
      exact Or.inr ⟨⟨e, rfl⟩, fun h => ha (hacc.1 h.1).1⟩

/-- **C54.**  `default(shape)` returns exactly when, in every class that validates, the validators accept the defaults of their fields
(otherwise it raises); what it returns holds the default of every field, at every depth. -/
theorem default_spec (conv : DType → Fv → Int) (v : Bool) {c : Cls} (hm : c.MadeAll) (b : List Nat) :
    (Accepts conv v b c → ∃ x, default conv v c b = .ok x ∧ DefaultOf conv b c x) ∧
    (¬ Accepts conv v b c → ∃ e, default conv v c b = .error e) := by
  have hacc := accepts_iff (conv := conv) (b := b) c v
  rw [default]
  rcases default_go_iff (conv := conv) c b hm with ⟨x, hx, hdx, hax⟩ | ⟨⟨e, he⟩, ha⟩
  · rw [hx]
    simp only
    rcases construct_default_iff (v := v) hm hdx with ⟨hc, hv⟩ | ⟨⟨e, he⟩, hv⟩
    · exact ⟨fun _ => ⟨x, hc, hdx⟩, fun h => absurd (hacc.2 ⟨hax, hv⟩) h⟩
    · exact ⟨fun h => absurd (hacc.1 h).2 hv, fun _ => ⟨e, he⟩⟩
  · rw [he]
    exact ⟨fun h => absurd (hacc.1 h).1 ha, fun _ => ⟨e, rfl⟩⟩

/-- A concrete case: a factory that returns the number of dimensions it is given. -/
def facFD : FD := ⟨.int 32, [2], none, none, none, none, none, some fun s _ => .int s.length, some fun a => a.data.all (· < 3)⟩

theorem facFD_made : Made facFD := by
  exact ⟨.int 32, [2], none, none, none, none, none, some fun s _ => .int s.length, some fun a => a.data.all (· < 3), rfl⟩

example : default (fun _ v => match v with | .int i => i | _ => 0) true (.leaf "a" facFD .nil) [1] =
    .ok (.arr "a" ⟨.int 32, [1, 2], [2, 2]⟩ .nil) := by rfl
example : default (fun _ v => match v with | .int i => i | _ => 0) true (.leaf "a" facFD .nil) [1, 1] = .error .user := by rfl
example : (Cls.leaf "a" facFD .nil).MadeAll := ⟨facFD_made, trivial⟩

end Desc
