import Verif.BitpackAccess

/-!
# C74: unknown keyword arguments of `set_unpacked` and `from_unpacked`

`set_unpacked` and the default-based path of `from_unpacked` raise `KeyError` for a name that is not a field
(bitpack_accessors.py:262-263, 311-312).  The direct path, taken when all fields are given, does not look at the other names
(bitpack_accessors.py:296-306): a misspelt or superfluous argument is dropped.
-/

namespace Bitpack

/-- The name is not a field of the class. -/
def Unknown (cls : List (String × Desc)) (name : String) : Prop := name ∉ cls.map Prod.fst

theorem lookup_none_of_unknown {cls : List (String × Desc)} {name : String} (h : Unknown cls name) : cls.lookup name = none := by
  induction cls with
  | nil => rfl
  | cons f cls ih =>
    unfold Unknown at h
    rw [List.map_cons, List.mem_cons, not_or] at h
    have : (name == f.1) = false := beq_false_of_ne h.1
    rw [List.lookup_cons, this]
    exact ih h.2

theorem fromUpdates_none (cls : List (String × Desc)) (batch : List Nat) : ∀ (kw : Fields) (name : String) (v : Arr Int),
    (name, v) ∈ kw → cls.lookup name = none → fromUpdates cls batch kw = none
  | f :: kw, name, v, hm, hn => by
    rw [fromUpdates]
    rcases List.mem_cons.1 hm with he | hm
    · rw [← he]; simp only; rw [hn]; rfl
    · rw [fromUpdates_none cls batch kw name v hm hn]
      cases cls.lookup f.1 with
      | none => rfl
      | some d => show (fromOne batch d f.2).bind _ = none; cases fromOne batch d f.2 <;> rfl

theorem packUpdates_none (cls : List (String × Desc)) (batch : List Nat) : ∀ (kw : Fields) (name : String) (v : Arr Int),
    (name, v) ∈ kw → cls.lookup name = none → packUpdates cls batch kw = none
  | f :: kw, name, v, hm, hn => by
    rw [packUpdates]
    rcases List.mem_cons.1 hm with he | hm
    · rw [← he]; simp only; rw [hn]
    · rw [packUpdates_none cls batch kw name v hm hn]
      cases cls.lookup f.1 with
      | none => rfl
      | some d => cases d with
        | plain => rfl
        | packed bits us => show (packField f.2 bits us batch).bind _ = none; cases packField f.2 bits us batch <;> rfl

/-- **C74, `set_unpacked`.**  A call with a name that is not a field raises. -/
theorem set_unpacked_unknown (cls : List (String × Desc)) (batch : List Nat) (inst kw : Fields) (name : String) (v : Arr Int)
    (hm : (name, v) ∈ kw) (hn : Unknown cls name) : setUnpacked cls batch inst kw = none := by
  unfold setUnpacked
  rw [packUpdates_none cls batch kw name v hm (lookup_none_of_unknown hn)]; rfl

/-- **C74, `from_unpacked` with fields missing.**  A call with a name that is not a field raises if some field is not
given. -/
theorem from_unpacked_unknown_partial (cls : List (String × Desc)) (batch : List Nat) (dflt kw : Fields) (name : String)
    (v : Arr Int) (hm : (name, v) ∈ kw) (hn : Unknown cls name) (hmiss : ∃ f ∈ cls, kw.lookup f.1 = none) :
    fromUnpacked cls batch dflt kw = none := by
  unfold fromUnpacked
  obtain ⟨f, hf, hl⟩ := hmiss
  rw [if_neg, fromUpdates_none cls batch kw name v hm (lookup_none_of_unknown hn)]
  · rfl
  · intro hc
    have := (List.all_eq_true.1 hc) f hf
    rw [hl] at this
    cases this

theorem fromAll_congr (batch : List Nat) (kw kw' : Fields) (cls : List (String × Desc))
    (h : ∀ f ∈ cls, kw.lookup f.1 = kw'.lookup f.1) : fromAll batch kw cls = fromAll batch kw' cls := by
  induction cls with
  | nil => rfl
  | cons f cls ih =>
    rw [fromAll, fromAll, h f (List.mem_cons_self ..), ih fun g hg => h g (List.mem_cons_of_mem _ hg)]

theorem lookup_filter_known (cls : List (String × Desc)) (kw : Fields) (f : String × Desc) (hf : f ∈ cls) :
    (kw.filter fun p => decide (p.1 ∈ cls.map Prod.fst)).lookup f.1 = kw.lookup f.1 := by
  induction kw with
  | nil => rfl
  | cons p kw ih =>
    by_cases hk : p.1 ∈ cls.map Prod.fst
    · rw [List.filter_cons_of_pos (by exact decide_eq_true hk), List.lookup_cons, List.lookup_cons, ih]
    · rw [List.filter_cons_of_neg (by rw [decide_eq_true_eq]; exact hk), ih, List.lookup_cons]
      have : (f.1 == p.1) = false := by
        apply beq_false_of_ne
        intro he
        exact hk (by rw [← he]; exact List.mem_map_of_mem hf)
      rw [this]

/-- **C74 is false for `from_unpacked`.**  When every field is given, any further arguments, whatever their names, change
nothing: the call does what it does without them. -/
theorem from_unpacked_unknown_false (cls : List (String × Desc)) (batch : List Nat) (dflt kw : Fields)
    (hall : ∀ f ∈ cls, (kw.lookup f.1).isSome = true) :
    fromUnpacked cls batch dflt kw = fromUnpacked cls batch dflt (kw.filter fun p => decide (p.1 ∈ cls.map Prod.fst)) := by
  unfold fromUnpacked
  rw [if_pos (List.all_eq_true.2 hall), if_pos]
  · exact fromAll_congr _ _ _ _ fun f hf => (lookup_filter_known cls kw f hf).symm
  · apply List.all_eq_true.2
    intro f hf
    rw [lookup_filter_known cls kw f hf]
    exact hall f hf

/-- Non-vacuity: the same unknown name `z` is dropped when `a` and `b` are given and raises when `b` is not. -/
example :
    let cls : List (String × Desc) := [("a", .plain), ("b", .packed 4 [2])]
    let a : Arr Int := ⟨[], [7]⟩
    let b : Arr Int := ⟨[2], [3, 9]⟩
    "z" ∉ cls.map Prod.fst ∧
    fromUnpacked cls [] [] [("a", a), ("z", a), ("b", b)] = fromUnpacked cls [] [] [("a", a), ("b", b)] ∧
    (fromUnpacked cls [] [] [("a", a), ("z", a), ("b", b)]).isSome = true ∧
    (fromUnpacked cls [] [] [("a", a), ("z", a)]) = none := by decide +kernel

/-! ### Values of the wrong shape -/

theorem packField_bad_shape {v : Arr Int} {bits : Nat} {us batch : List Nat} (h : v.shape ≠ batch ++ us) : packField v bits us batch = none := by
  unfold packField
  by_cases h1 : v.shape.take batch.length ≠ batch
  · rw [if_pos h1]
  · rw [if_neg h1]
    by_cases h2 : v.shape.drop batch.length ≠ us
    · rw [if_pos h2]
    · exact absurd (by rw [← List.take_append_drop batch.length v.shape, Classical.not_not.1 h1, Classical.not_not.1 h2]) h

/-- **C74 / C36, `set_unpacked` with a value of the wrong shape** (anything but batch shape followed by the declared shape, in particular a value for another
batch shape that would broadcast) raises, whatever the other arguments are. -/
theorem set_unpacked_bad_shape (cls : List (String × Desc)) (batch : List Nat) (inst : Fields) {name : String} {bits : Nat} {us : List Nat} {v : Arr Int}
    (hd : cls.lookup name = some (.packed bits us)) (hv : v.shape ≠ batch ++ us) : ∀ kw : Fields, (name, v) ∈ kw → setUnpacked cls batch inst kw = none := by
  intro kw hm
  unfold setUnpacked
  have : packUpdates cls batch kw = none := by
    induction kw with
    | nil => cases hm
    | cons f kw ih =>
      rw [packUpdates]
      rcases List.mem_cons.1 hm with he | hm
      · rw [← he]; simp only [hd]; rw [packField_bad_shape hv]; rfl
      · rw [ih hm]
        cases cls.lookup f.1 with
        | none => rfl
        | some d => cases d with
          | plain => rfl
          | packed bits us => show (packField f.2 bits us batch).bind _ = none; cases packField f.2 bits us batch <;> rfl
  rw [this]
  rfl

/-- **C74 / C36, `from_unpacked` with a packed field of the wrong shape** raises, whether or not all fields are given. -/
theorem from_unpacked_bad_shape (cls : List (String × Desc)) (batch : List Nat) (dflt kw : Fields) {name : String} {bits : Nat} {us : List Nat} {v : Arr Int}
    (hd : cls.lookup name = some (.packed bits us)) (hk : kw.lookup name = some v) (hv : v.shape ≠ batch ++ us) :
    fromUnpacked cls batch dflt kw = none := by
  unfold fromUnpacked
  by_cases hall : (cls.all fun f => (kw.lookup f.1).isSome) = true
  · rw [if_pos hall]
    clear hall
    have : ∀ cls : List (String × Desc), cls.lookup name = some (.packed bits us) → fromAll batch kw cls = none := by
      intro cls
      induction cls with
      | nil => intro h; cases h
      | cons f cls ih =>
        intro h
        obtain ⟨n, d⟩ := f
        rw [fromAll]
        rw [List.lookup_cons] at h
        by_cases hn : (name == n) = true
        · rw [hn] at h
          cases h
          rw [← eq_of_beq hn, hk]
          show (packField v bits us batch).bind _ = none
          rw [packField_bad_shape hv]
          rfl
        · rw [Bool.not_eq_true] at hn
          rw [hn] at h
          rw [ih h]
          cases kw.lookup n with
          | none => rfl
          | some w => show (fromOne batch d w).bind _ = none; cases fromOne batch d w <;> rfl
    exact this cls hd
  · rw [if_neg hall]
    clear hall
    have : fromUpdates cls batch kw = none := by
      induction kw with
      | nil => cases hk
      | cons f kw ih =>
        obtain ⟨n, w⟩ := f
        rw [fromUpdates]
        rw [List.lookup_cons] at hk
        by_cases hn : (name == n) = true
        · rw [hn] at hk
          cases hk
          rw [← eq_of_beq hn, hd]
          show (packField v bits us batch).bind _ = none
          rw [packField_bad_shape hv]
          rfl
        · rw [Bool.not_eq_true] at hn
          rw [hn] at hk
          rw [ih hk]
          cases cls.lookup n with
          | none => rfl
          | some d => show (fromOne batch d w).bind _ = none; cases fromOne batch d w <;> rfl
    rw [this]
    rfl

/-- Non-vacuity: a value of shape `[2]` for a batch of 3 is refused, although it would broadcast. -/
example :
    let cls : List (String × Desc) := [("a", .plain), ("b", .packed 4 [2])]
    setUnpacked cls [3] [] [("b", ⟨[2], [3, 9]⟩)] = none ∧ (setUnpacked cls [1] [] [("b", ⟨[1, 2], [3, 9]⟩)]).isSome = true := by decide +kernel

end Bitpack
