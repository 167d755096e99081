import Verif.PytreeModel

/-!
# C51: containers survive JAX transformations
-/

namespace Pytree

variable {V : Type}

/-- Attribute names are distinct, declared field names are distinct, static fields are declared. -/
structure Ok (c : Class) (d : Attrs V) : Prop where
  attrs : (d.map (·.1)).Nodup
  fields : c.fields.Nodup
  static : ∀ k ∈ c.static, k ∈ c.fields

/-- Names of the cached values an access of `shape`, `dtype` or `structured_type` stores in the object. -/
def cacheNames : List String := ["_shape_cache", "_dtype_cache", "_structured_type_cache"]

/-- The attributes that take part in flattening: declared fields, and others that are not internal caches. -/
def Visible (c : Class) (d : Attrs V) (k : String) : Prop := (d.lookup k).isSome = true ∧ (k ∈ c.fields ∨ k ∉ cacheNames)

/-! ## Dictionaries -/

theorem lookup_mem {d : List (String × V)} (h : (d.map (·.1)).Nodup) {k : String} {v : V} : d.lookup k = some v ↔ (k, v) ∈ d := by
  induction d with
  | nil => simp
  | cons e d ih =>
    obtain ⟨a, b⟩ := e
    simp only [List.map_cons, List.nodup_cons] at h
    rw [List.lookup_cons]
    by_cases hk : k = a
    · subst hk
      simp only [beq_self_eq_true, Option.some.injEq, List.mem_cons, Prod.mk.injEq, true_and]
      constructor
      · exact fun hh => Or.inl hh.symm
      · rintro (hh | hh)
        · exact hh.symm
        · exact absurd (List.mem_map.2 ⟨_, hh, rfl⟩) h.1
    · have : (k == a) = false := by simpa using hk
      simp only [this, ih h.2, List.mem_cons, Prod.mk.injEq, hk, false_and, false_or]

theorem lookup_isSome {d : List (String × V)} {k : String} : (d.lookup k).isSome = true ↔ k ∈ d.map (·.1) := by
  induction d with
  | nil => simp
  | cons e d ih =>
    obtain ⟨a, b⟩ := e
    rw [List.lookup_cons]
    by_cases hk : k = a
    · subst hk; simp
    · have : (k == a) = false := by simpa using hk
      simp only [this, ih, List.map_cons, List.mem_cons, hk, false_or]

theorem lookup_none {d : List (String × V)} {k : String} : d.lookup k = none ↔ k ∉ d.map (·.1) := by
  rw [← lookup_isSome]; cases d.lookup k <;> simp

theorem dictGet_eq {l : List (String × V)} (h : (l.map (·.1)).Nodup) (k : String) : dictGet l k = l.lookup k := by
  have hr : (l.reverse.map (·.1)).Nodup := by rw [List.map_reverse]; exact (List.reverse_perm _).nodup_iff.2 h
  unfold dictGet
  cases hl : l.lookup k with
  | none => rw [lookup_none] at hl ⊢; simpa using hl
  | some v => rw [lookup_mem hr, List.mem_reverse, ← lookup_mem h]; exact hl

theorem map_fst_zip {ks : List String} {vs : List V} (h : ks.length = vs.length) : (ks.zip vs).map (·.1) = ks :=
  List.map_fst_zip (Nat.le_of_eq h)

theorem lookup_zip {ks : List String} {vs : List V} (hk : ks.Nodup) {i : Nat} {k : String} {v : V} (h1 : ks[i]? = some k) (h2 : vs[i]? = some v) :
    (ks.zip vs).lookup k = some v := by
  induction ks generalizing vs i with
  | nil => simp at h1
  | cons a ks ih =>
    cases vs with
    | nil => simp at h2
    | cons b vs =>
      rw [List.nodup_cons] at hk
      rw [List.zip_cons_cons, List.lookup_cons]
      cases i with
      | zero =>
        simp only [List.getElem?_cons_zero, Option.some.injEq] at h1 h2
        subst h1 h2
        simp
      | succ i =>
        simp only [List.getElem?_cons_succ] at h1 h2
        have hne : k ≠ a := fun hh => hk.1 (hh ▸ List.mem_of_getElem? h1)
        have : (k == a) = false := by simpa using hne
        simp only [this]
        exact ih hk.2 h1 h2

theorem mapM_lookup {β γ : Type} {f : β → Option γ} {l : List β} {r : List γ} (h : l.mapM f = some r) :
    r.length = l.length ∧ ∀ (i : Nat) (x : β), l[i]? = some x → f x = r[i]? := by
  induction l generalizing r with
  | nil => cases h; simp
  | cons a l ih =>
    rw [List.mapM_cons] at h
    cases hf : f a with
    | none => rw [hf] at h; cases h
    | some b =>
      cases hl : l.mapM f with
      | none => rw [hf, hl] at h; cases h
      | some r' =>
        rw [hf, hl] at h
        cases h
        obtain ⟨h1, h2⟩ := ih hl
        refine ⟨by simp [h1], fun i x hx => ?_⟩
        cases i with
        | zero => simp only [List.getElem?_cons_zero, Option.some.injEq] at hx; subst hx; simpa using hf
        | succ i => exact h2 i x (by simpa using hx)

theorem mapM_some {β γ : Type} {f : β → Option γ} {l : List β} (h : ∀ x ∈ l, (f x).isSome = true) : ∃ r, l.mapM f = some r := by
  induction l with
  | nil => exact ⟨_, rfl⟩
  | cons a l ih =>
    obtain ⟨r, hr⟩ := ih fun x hx => h x (by simp [hx])
    have ha := h a (by simp)
    cases hf : f a with
    | none => rw [hf] at ha; cases ha
    | some b => exact ⟨b :: r, by rw [List.mapM_cons, hf, hr]; rfl⟩

theorem mapM_congr {β γ : Type} {f g : β → Option γ} {l : List β} (h : ∀ x ∈ l, f x = g x) : l.mapM f = l.mapM g := by
  induction l with
  | nil => rfl
  | cons a l ih => rw [List.mapM_cons, List.mapM_cons, h a (by simp), ih fun x hx => h x (by simp [hx])]

/-- The entries `(k, d[k])`. -/
theorem mapM_items {d : Attrs V} {l : List String} {items : List (String × V)} (h : (l.mapM fun k => (d.lookup k).map fun v => (k, v)) = some items) :
    items.map (·.1) = l ∧ l.mapM (fun k => d.lookup k) = some (items.map (·.2)) := by
  induction l generalizing items with
  | nil => cases h; exact ⟨rfl, rfl⟩
  | cons a l ih =>
    rw [List.mapM_cons] at h
    cases hf : d.lookup a with
    | none => rw [hf] at h; cases h
    | some b =>
      cases hl : (l.mapM fun k => (d.lookup k).map fun v => (k, v)) with
      | none => rw [hf, hl] at h; cases h
      | some r =>
        rw [hf, hl] at h
        cases h
        obtain ⟨h1, h2⟩ := ih hl
        refine ⟨by simp [h1], ?_⟩
        rw [List.mapM_cons, hf, h2]
        rfl

theorem mapM_pairs {d : Attrs V} {l : List String} {vs : List V} (h : l.mapM (fun k => d.lookup k) = some vs) :
    (l.mapM fun k => (d.lookup k).map fun v => (k, v)) = some (l.zip vs) := by
  induction l generalizing vs with
  | nil => cases h; rfl
  | cons a l ih =>
    rw [List.mapM_cons] at h
    cases hf : d.lookup a with
    | none => rw [hf] at h; cases h
    | some b =>
      cases hl : l.mapM (fun k => d.lookup k) with
      | none => rw [hf, hl] at h; cases h
      | some r =>
        rw [hf, hl] at h
        cases h
        rw [List.mapM_cons, hf, ih hl]
        rfl

/-! ## The order of the attributes -/

theorem mem_orderedKeys {c : Class} {d : Attrs V} {k : String} : k ∈ orderedKeys c d ↔ Visible c d k := by
  unfold orderedKeys Visible
  rw [lookup_isSome]
  simp only [sortKeys, List.mem_append, List.mem_mergeSort, List.mem_filter, List.contains_iff_mem, Bool.and_eq_true, Bool.not_eq_true', ← Bool.not_eq_true, not_and]
  constructor
  · rintro (⟨h1, h2⟩ | ⟨h1, h2, h3⟩)
    · exact ⟨h2, Or.inl h1⟩
    · exact ⟨h1, Or.inr h3⟩
  · rintro ⟨h1, h2⟩
    by_cases hf : k ∈ c.fields
    · exact Or.inl ⟨hf, h1⟩
    · exact Or.inr ⟨h1, fun h => absurd h hf, h2.resolve_left hf⟩

theorem orderedKeys_nodup {c : Class} {d : Attrs V} (h : Ok c d) : (orderedKeys c d).Nodup := by
  unfold orderedKeys
  simp only
  rw [List.nodup_append]
  refine ⟨h.fields.filter _, (List.mergeSort_perm _ _).nodup_iff.2 (h.attrs.filter _), ?_⟩
  intro a ha b hb e
  subst e
  simp only [sortKeys, List.mem_mergeSort] at hb
  have h3 := (List.mem_filter.1 hb).2
  rw [Bool.and_eq_true, Bool.not_eq_true', ← Bool.not_eq_true, List.contains_iff_mem] at h3
  exact h3.1 ha

theorem le_trans' (a b c : String) (h1 : decide (a ≤ b) = true) (h2 : decide (b ≤ c) = true) : decide (a ≤ c) = true :=
  decide_eq_true (String.le_trans (of_decide_eq_true h1) (of_decide_eq_true h2))

theorem le_total' (a b : String) : (decide (a ≤ b) || decide (b ≤ a)) = true := by
  rcases String.le_total a b with h | h <;> simp [h]

theorem sortKeys_perm {l l' : List String} (h : l.Perm l') : sortKeys l = sortKeys l' := by
  refine List.Perm.eq_of_pairwise (le := fun a b => decide (a ≤ b) = true) ?_ (List.pairwise_mergeSort le_trans' le_total' l)
    (List.pairwise_mergeSort le_trans' le_total' l') ((List.mergeSort_perm l _).trans (h.trans (List.mergeSort_perm l' _).symm))
  exact fun a b _ _ h1 h2 => String.le_antisymm (of_decide_eq_true h1) (of_decide_eq_true h2)

/-- Two objects with the same visible attributes, whatever the order in which they were set and whatever is cached. -/
def SameAttrs (c : Class) (d d' : Attrs V) : Prop := ∀ k, k ∈ c.fields ∨ k ∉ cacheNames → d.lookup k = d'.lookup k

theorem orderedKeys_same {c : Class} {d d' : Attrs V} (h : Ok c d) (h' : Ok c d') (hs : SameAttrs c d d') : orderedKeys c d = orderedKeys c d' := by
  have hmem : ∀ k, k ∈ c.fields ∨ k ∉ cacheNames → (k ∈ d.map (·.1) ↔ k ∈ d'.map (·.1)) := fun k hk => by
    rw [← lookup_isSome, ← lookup_isSome, hs k hk]
  have hseen : (c.fields.filter fun n => (d.map (·.1)).contains n) = c.fields.filter fun n => (d'.map (·.1)).contains n := by
    refine List.filter_congr fun n hn => ?_
    rw [Bool.eq_iff_iff, List.contains_iff_mem, List.contains_iff_mem]
    exact hmem n (Or.inl hn)
  unfold orderedKeys
  simp only
  rw [hseen]
  congr 1
  refine sortKeys_perm ((List.perm_ext_iff_of_nodup (h.attrs.filter _) (h'.attrs.filter _)).2 fun k => ?_)
  simp only [List.mem_filter, Bool.and_eq_true, Bool.not_eq_true', List.contains_eq_mem, decide_eq_false_iff_not]
  constructor
  · rintro ⟨h1, h2, h3⟩; exact ⟨(hmem k (Or.inr h3)).1 h1, h2, h3⟩
  · rintro ⟨h1, h2, h3⟩; exact ⟨(hmem k (Or.inr h3)).2 h1, h2, h3⟩

/-! ## Flattening -/

/-- The keys of the children. -/
def childKeys (c : Class) (d : Attrs V) : List String := (orderedKeys c d).filter fun k => !c.static.contains k

/-- The names in the metadata belonging to children. -/
def Aux.childNames : Aux V → List String
  | .keys l => l
  | .static l _ => l

/-- The static values in the metadata. -/
def Aux.items : Aux V → List (String × V)
  | .keys _ => []
  | .static _ i => i

/-- Everything `flatten` returns, in one place. -/
theorem flatten_spec {hashable : V → Bool} {c : Class} {d : Attrs V} {cs : List V} {aux : Aux V} (h : flatten hashable c d = some (cs, aux)) :
    (childKeys c d).mapM (fun k => d.lookup k) = some cs ∧ aux.childNames = childKeys c d ∧
    ((orderedKeys c d).filter fun k => c.static.contains k).mapM (fun k => (d.lookup k).map fun v => (k, v)) = some aux.items ∧
    (∀ e ∈ aux.items, hashable e.2 = true) ∧ ((∃ l, aux = .keys l) ↔ c.static = []) := by
  unfold flatten at h
  by_cases hd : d = []
  · subst hd
    have ho : orderedKeys c ([] : Attrs V) = [] := by
      rw [List.eq_nil_iff_forall_not_mem]
      intro k hk
      rw [mem_orderedKeys] at hk
      exact absurd hk.1 (by simp)
    rw [if_pos rfl] at h
    unfold childKeys
    rw [ho]
    by_cases hs : c.static = []
    · rw [if_pos hs] at h
      cases h
      exact ⟨rfl, rfl, rfl, by simp [Aux.items], by simp [hs]⟩
    · rw [if_neg hs] at h
      cases h
      exact ⟨rfl, rfl, rfl, by simp [Aux.items], by simp [hs]⟩
  · rw [if_neg hd] at h
    by_cases hs : c.static = []
    · rw [if_pos hs] at h
      have hck : childKeys c d = orderedKeys c d := by unfold childKeys; rw [hs]; simp
      cases hm : (orderedKeys c d).mapM fun k => d.lookup k with
      | none => rw [hm] at h; cases h
      | some vs =>
        rw [hm] at h
        cases h
        rw [hck]
        refine ⟨hm, rfl, ?_, by simp [Aux.items], by simp [hs]⟩
        have : ((orderedKeys c d).filter fun k => c.static.contains k) = [] := by rw [hs]; simp
        rw [this]
        rfl
    · rw [if_neg hs] at h
      simp only at h
      cases hi : ((orderedKeys c d).filter fun k => c.static.contains k).mapM (fun k => (d.lookup k).map fun v => (k, v)) with
      | none => rw [hi] at h; cases h
      | some items =>
        rw [hi] at h
        simp only [Option.bind_some] at h
        by_cases ha : (items.all fun e => hashable e.2) = true
        · rw [if_pos ha] at h
          cases hm : (childKeys c d).mapM fun k => d.lookup k with
          | none => unfold childKeys at hm; rw [hm] at h; cases h
          | some vs =>
            have hm' := hm
            unfold childKeys at hm'
            rw [hm'] at h
            cases h
            exact ⟨rfl, rfl, rfl, List.all_eq_true.1 ha, by simp [hs]⟩
        · rw [if_neg ha] at h; cases h

/-- **Flattening raises iff a static field holds an unhashable value.** -/
theorem flatten_raises {hashable : V → Bool} {c : Class} {d : Attrs V} :
    flatten hashable c d = none ↔ ∃ k v, k ∈ c.static ∧ Visible c d k ∧ d.lookup k = some v ∧ hashable v = false := by
  have hvis : ∀ k ∈ orderedKeys c d, (d.lookup k).isSome = true := fun k hk => (mem_orderedKeys.1 hk).1
  have hmem : ∀ k v, k ∈ c.static → Visible c d k → d.lookup k = some v → d ≠ [] := fun k v _ _ hl he => by
    subst he; cases hl
  unfold flatten
  by_cases hd : d = []
  · rw [if_pos hd]
    have hr : ¬ ∃ k v, k ∈ c.static ∧ Visible c d k ∧ d.lookup k = some v ∧ hashable v = false := fun ⟨k, v, h1, h2, h3, _⟩ => hmem k v h1 h2 h3 hd
    by_cases hs : c.static = []
    · rw [if_pos hs]; simp only [hr]; simp
    · rw [if_neg hs]; simp only [hr]; simp
  · rw [if_neg hd]
    by_cases hs : c.static = []
    · rw [if_pos hs]
      obtain ⟨r, hr⟩ := mapM_some hvis
      rw [hr, hs]
      simp
    · rw [if_neg hs]
      simp only
      obtain ⟨items, hi⟩ := mapM_some (f := fun k => (d.lookup k).map fun v => (k, v)) (l := (orderedKeys c d).filter fun k => c.static.contains k)
        fun k hk => by rw [Option.isSome_map]; exact hvis k (List.mem_filter.1 hk).1
      obtain ⟨vs, hv⟩ := mapM_some (f := fun k => d.lookup k) (l := (orderedKeys c d).filter fun k => !c.static.contains k)
        fun k hk => hvis k (List.mem_filter.1 hk).1
      rw [hi, hv]
      simp only [Option.bind_some, Option.map_some]
      obtain ⟨m1, m2⟩ := mapM_lookup hi
      have hitem : ∀ k v, (k, v) ∈ items ↔ k ∈ c.static ∧ Visible c d k ∧ d.lookup k = some v := by
        intro k v
        constructor
        · intro hkv
          obtain ⟨i, hi'⟩ := List.mem_iff_getElem?.1 hkv
          have hlt : i < ((orderedKeys c d).filter fun k => c.static.contains k).length := by
            rw [← m1]; exact (List.getElem?_eq_some_iff.1 hi').1
          have hg := List.getElem?_eq_getElem hlt
          have h3 := m2 i _ hg
          rw [hi'] at h3
          generalize hx : ((orderedKeys c d).filter fun k => c.static.contains k)[i] = x at h3 hg
          have hmx := List.mem_filter.1 (List.mem_of_getElem? hg)
          cases hl : d.lookup x with
          | none => rw [hl] at h3; cases h3
          | some w =>
            rw [hl] at h3
            cases h3
            exact ⟨by simpa using hmx.2, mem_orderedKeys.1 hmx.1, hl⟩
        · rintro ⟨h1, h2, h3⟩
          have hk : k ∈ (orderedKeys c d).filter fun k => c.static.contains k := List.mem_filter.2 ⟨mem_orderedKeys.2 h2, by simpa using h1⟩
          obtain ⟨i, hi'⟩ := List.mem_iff_getElem?.1 hk
          have h4 := m2 i k hi'
          rw [h3] at h4
          exact List.mem_of_getElem? h4.symm
      by_cases ha : (items.all fun e => hashable e.2) = true
      · rw [if_pos ha]
        simp only [reduceCtorEq, false_iff]
        rintro ⟨k, v, h1, h2, h3, h4⟩
        have := List.all_eq_true.1 ha (k, v) ((hitem k v).2 ⟨h1, h2, h3⟩)
        simp only at this
        rw [h4] at this
        cases this
      · rw [if_neg ha]
        simp only [true_iff]
        rw [List.all_eq_true] at ha
        simp only [Classical.not_forall] at ha
        obtain ⟨⟨k, v⟩, hm, hh⟩ := ha
        obtain ⟨h1, h2, h3⟩ := (hitem k v).1 hm
        exact ⟨k, v, h1, h2, h3, by simpa using hh⟩

theorem childKeys_nodup {c : Class} {d : Attrs V} (h : Ok c d) : (childKeys c d).Nodup := (orderedKeys_nodup h).filter _

theorem mem_childKeys {c : Class} {d : Attrs V} {k : String} : k ∈ childKeys c d ↔ Visible c d k ∧ k ∉ c.static := by
  unfold childKeys
  rw [List.mem_filter, mem_orderedKeys]
  simp

/-- **What becomes a leaf.**  The children are, one each, the values of the visible attributes that are not static fields; the metadata holds the names of
the children and, one each, the static fields with their (hashable) values. -/
theorem flatten_children {hashable : V → Bool} {c : Class} {d : Attrs V} (hok : Ok c d) {cs : List V} {aux : Aux V} (h : flatten hashable c d = some (cs, aux)) :
    aux.childNames.Nodup ∧ (∀ k, k ∈ aux.childNames ↔ Visible c d k ∧ k ∉ c.static) ∧ cs.length = aux.childNames.length ∧
    (∀ (i : Nat) (k : String), aux.childNames[i]? = some k → cs[i]? = d.lookup k) ∧
    (aux.items.map (·.1)).Nodup ∧ (∀ k v, (k, v) ∈ aux.items ↔ k ∈ c.static ∧ d.lookup k = some v) := by
  obtain ⟨h1, h2, h3, h4, h5⟩ := flatten_spec h
  obtain ⟨m1, m2⟩ := mapM_lookup h1
  obtain ⟨i1, i2⟩ := mapM_items h3
  have hnd : (aux.items.map (·.1)).Nodup := by rw [i1]; exact (orderedKeys_nodup hok).filter _
  rw [h2]
  refine ⟨childKeys_nodup hok, fun k => mem_childKeys, m1, fun i k hk => (m2 i k hk).symm, hnd, fun k v => ?_⟩
  obtain ⟨n1, n2⟩ := mapM_lookup h3
  constructor
  · intro hkv
    have hks : k ∈ (orderedKeys c d).filter fun k => c.static.contains k := by
      rw [← i1]; exact List.mem_map.2 ⟨_, hkv, rfl⟩
    have hks' := List.mem_filter.1 hks
    obtain ⟨i, hi⟩ := List.mem_iff_getElem?.1 hks
    have hh := n2 i k hi
    have hl : (d.lookup k).isSome = true := (mem_orderedKeys.1 hks'.1).1
    cases hlk : d.lookup k with
    | none => rw [hlk] at hl; cases hl
    | some w =>
      rw [hlk] at hh
      have hm : (k, w) ∈ aux.items := List.mem_of_getElem? hh.symm
      have e1 := (lookup_mem hnd).2 hm
      have e2 := (lookup_mem hnd).2 hkv
      rw [e1, Option.some.injEq] at e2
      exact ⟨by simpa using hks'.2, by rw [e2]⟩
  · rintro ⟨hs, hl⟩
    have hks : k ∈ (orderedKeys c d).filter fun k => c.static.contains k :=
      List.mem_filter.2 ⟨mem_orderedKeys.2 ⟨by rw [hl]; rfl, Or.inl (hok.static k hs)⟩, by simpa using hs⟩
    obtain ⟨i, hi⟩ := List.mem_iff_getElem?.1 hks
    have hh := n2 i k hi
    rw [hl] at hh
    exact List.mem_of_getElem? hh.symm

/-- Setting the declared fields from a dictionary with distinct keys. -/
theorem setFields_lookup {c : Class} (hf : c.fields.Nodup) {l : List (String × V)} (hl : (l.map (·.1)).Nodup) (k : String) :
    (setFields c l).lookup k = if k ∈ c.fields then l.lookup k else none := by
  unfold setFields
  generalize c.fields = fs at hf
  induction fs with
  | nil => simp
  | cons n fs ih =>
    rw [List.nodup_cons] at hf
    simp only [List.filterMap_cons]
    rw [dictGet_eq hl n]
    cases hn : l.lookup n with
    | none =>
      simp only [Option.map_none]
      rw [ih hf.2]
      by_cases hk : k = n
      · subst hk; simp [hf.1, hn]
      · simp [hk]
    | some v =>
      simp only [Option.map_some, List.lookup_cons]
      by_cases hk : k = n
      · subst hk; simp [hn]
      · have : (k == n) = false := by simpa using hk
        simp only [this, ih hf.2, List.mem_cons, hk, false_or]

theorem zip_append_nodup {c : Class} {d : Attrs V} (hok : Ok c d) {hashable : V → Bool} {cs : List V} {aux : Aux V} (h : flatten hashable c d = some (cs, aux))
    {cs' : List V} (hl : cs'.length = cs.length) : ((aux.childNames.zip cs' ++ aux.items).map (·.1)).Nodup := by
  obtain ⟨c1, c2, c3, _, c5, c6⟩ := flatten_children hok h
  rw [List.map_append, map_fst_zip (by omega), List.nodup_append]
  refine ⟨c1, c5, fun a ha b hb e => ?_⟩
  subst e
  obtain ⟨⟨k, v⟩, hkv, rfl⟩ := List.mem_map.1 hb
  exact ((c2 _).1 ha).2 ((c6 k v).1 hkv).1

/-- Rebuilding with new children `cs'`: what every attribute is. -/
theorem unflatten_lookup {c : Class} {d : Attrs V} (hok : Ok c d) {hashable : V → Bool} {cs : List V} {aux : Aux V} (h : flatten hashable c d = some (cs, aux))
    {cs' : List V} (hl : cs'.length = cs.length) :
    ∃ d', unflatten c aux cs' = some d' ∧ ∀ k, d'.lookup k = if k ∈ c.fields then (if k ∈ c.static then d.lookup k else (aux.childNames.zip cs').lookup k) else none := by
  have hnd := zip_append_nodup hok h hl
  obtain ⟨c1, c2, c3, c4, c5, c6⟩ := flatten_children hok h
  obtain ⟨_, _, _, _, h5⟩ := flatten_spec h
  refine ⟨setFields c (aux.childNames.zip cs' ++ aux.items), ?_, fun k => ?_⟩
  · unfold unflatten
    cases aux with
    | keys l => simp only [h5.1 ⟨l, rfl⟩, if_true, Aux.childNames, Aux.items, List.append_nil]
    | static l i =>
      have : ¬ c.static = [] := fun hs => by
        obtain ⟨l', hl'⟩ := h5.2 hs
        cases hl'
      simp only [if_neg this, Aux.childNames, Aux.items]
  · rw [setFields_lookup hok.fields hnd]
    by_cases hf : k ∈ c.fields
    · rw [if_pos hf, if_pos hf]
      rw [List.lookup_append]
      by_cases hs : k ∈ c.static
      · rw [if_pos hs]
        have h1 : (aux.childNames.zip cs').lookup k = none := by
          rw [lookup_none, map_fst_zip (by omega)]
          exact fun hh => ((c2 k).1 hh).2 hs
        rw [h1, Option.none_or]
        cases hl : d.lookup k with
        | none =>
          rw [lookup_none]
          intro hh
          obtain ⟨⟨k', v⟩, hkv, hk'⟩ := List.mem_map.1 hh
          simp only at hk'
          subst hk'
          rw [((c6 _ v).1 hkv).2] at hl
          cases hl
        | some v => rw [lookup_mem c5, c6]; exact ⟨hs, hl⟩
      · rw [if_neg hs]
        have h1 : aux.items.lookup k = none := by
          rw [lookup_none]
          intro hh
          obtain ⟨⟨k', v⟩, hkv, hk'⟩ := List.mem_map.1 hh
          simp only at hk'
          subst hk'
          exact hs ((c6 _ v).1 hkv).1
        rw [h1, Option.or_none]
    · rw [if_neg hf, if_neg hf]

theorem zip_children_lookup {c : Class} {d : Attrs V} (hok : Ok c d) {hashable : V → Bool} {cs : List V} {aux : Aux V} (h : flatten hashable c d = some (cs, aux))
    (f : V → V) {k : String} (hf : k ∈ c.fields) (hs : k ∉ c.static) : (aux.childNames.zip (cs.map f)).lookup k = (d.lookup k).map f := by
  obtain ⟨c1, c2, c3, c4, c5, c6⟩ := flatten_children hok h
  cases hl : d.lookup k with
  | none =>
    rw [Option.map_none, lookup_none, map_fst_zip (by simpa using c3.symm)]
    intro hh
    have := ((c2 k).1 hh).1.1
    rw [hl] at this
    cases this
  | some v =>
    have hk : k ∈ aux.childNames := (c2 k).2 ⟨⟨by rw [hl]; rfl, Or.inl hf⟩, hs⟩
    obtain ⟨i, hi⟩ := List.mem_iff_getElem?.1 hk
    have := c4 i k hi
    rw [hl] at this
    exact lookup_zip c1 hi (by rw [List.getElem?_map, this]; rfl)

/-- **C51.**  Flattening an object and unflattening the result gives an object with the same declared fields, static or not, and no other attributes. -/
theorem flatten_unflatten {hashable : V → Bool} {c : Class} {d : Attrs V} (hok : Ok c d) {cs : List V} {aux : Aux V}
    (h : flatten hashable c d = some (cs, aux)) :
    ∃ d', unflatten c aux cs = some d' ∧ ∀ k, d'.lookup k = if k ∈ c.fields then d.lookup k else none := by
  obtain ⟨d', h1, h2⟩ := unflatten_lookup hok h (cs' := cs) rfl
  refine ⟨d', h1, fun k => ?_⟩
  rw [h2]
  by_cases hf : k ∈ c.fields
  · rw [if_pos hf, if_pos hf]
    by_cases hs : k ∈ c.static
    · rw [if_pos hs]
    · rw [if_neg hs]
      have := zip_children_lookup hok h id hf hs
      simpa using this
  · rw [if_neg hf, if_neg hf]

/-- Two objects with the same attributes in the same order. -/
theorem attrs_ext {d d' : Attrs V} (h : (d.map (·.1)).Nodup) (hk : d.map (·.1) = d'.map (·.1)) (hl : ∀ k, d.lookup k = d'.lookup k) : d = d' := by
  induction d generalizing d' with
  | nil => cases d' with
    | nil => rfl
    | cons => simp at hk
  | cons e d ih => cases d' with
    | nil => simp at hk
    | cons e' d' =>
      obtain ⟨a, v⟩ := e
      obtain ⟨a', v'⟩ := e'
      simp only [List.map_cons, List.cons.injEq] at hk
      obtain ⟨rfl, hk⟩ := hk
      simp only [List.map_cons, List.nodup_cons] at h
      have hv := hl a
      simp only [List.lookup_cons, beq_self_eq_true, Option.some.injEq] at hv
      subst hv
      congr 1
      refine ih h.2 hk fun k => ?_
      by_cases hka : k = a
      · subst hka
        have h1 := h.1
        rw [lookup_none.2 h1, lookup_none.2 (hk ▸ h1)]
      · have hb : (k == a) = false := by simpa using hka
        have := hl k
        simpa only [List.lookup_cons, hb] using this

/-- **C51 for an object as its constructor leaves it** (exactly the declared fields, in order): flattening and unflattening gives the same object. -/
theorem flatten_unflatten_exact {hashable : V → Bool} {c : Class} {d : Attrs V} (hok : Ok c d) (hd : d.map (·.1) = c.fields) {cs : List V} {aux : Aux V}
    (h : flatten hashable c d = some (cs, aux)) : unflatten c aux cs = some d := by
  obtain ⟨d', h1, h2⟩ := flatten_unflatten hok h
  rw [h1]
  congr 1
  have hset : ∃ l, d' = setFields c l := by
    unfold unflatten at h1
    cases aux with
    | keys l => simp only at h1; split at h1 <;> cases h1; exact ⟨_, rfl⟩
    | static l i => simp only at h1; split at h1 <;> cases h1; exact ⟨_, rfl⟩
  have hfields : ∀ k ∈ c.fields, (d'.lookup k).isSome = true := fun k hk => by
    rw [h2, if_pos hk, lookup_isSome, hd]; exact hk
  have hkeys : d'.map (·.1) = c.fields := by
    obtain ⟨l, rfl⟩ := hset
    unfold setFields
    rw [List.map_filterMap]
    have hfm : (c.fields.filterMap fun n => Option.map (fun e : String × V => e.1) ((dictGet l n).map fun v => (n, v))) =
        c.fields.filter fun n => (dictGet l n).isSome := by
      rw [← List.filterMap_eq_filter]
      congr 1
      funext n
      cases hdg : dictGet l n <;> simp [Option.guard, hdg]
    rw [hfm, List.filter_eq_self]
    intro k hk
    have := lookup_isSome.1 (hfields k hk)
    simp only [setFields, List.mem_map, List.mem_filterMap] at this
    obtain ⟨e, ⟨n, _, hn⟩, rfl⟩ := this
    cases hg : dictGet l n with
    | none => rw [hg] at hn; cases hn
    | some v => rw [hg] at hn; cases hn; simp [hg]
  refine attrs_ext (by rw [hkeys]; exact hok.fields) (by rw [hkeys, hd]) fun k => ?_
  rw [h2]
  by_cases hk : k ∈ c.fields
  · rw [if_pos hk]
  · rw [if_neg hk, lookup_none.2 (by rw [hd]; exact hk)]

/-- **`tree_map`** applies the function to every field that is not static, and leaves the static fields and the class as they are. -/
theorem tree_map_spec {hashable : V → Bool} {c : Class} {d d' : Attrs V} (hok : Ok c d) {f : V → V} (h : treeMap hashable c f d = some d') (k : String) :
    d'.lookup k = if k ∈ c.fields then (if k ∈ c.static then d.lookup k else (d.lookup k).map f) else none := by
  unfold treeMap at h
  cases hf : flatten hashable c d with
  | none => rw [hf] at h; cases h
  | some p =>
    obtain ⟨cs, aux⟩ := p
    rw [hf] at h
    simp only [Option.bind_some] at h
    obtain ⟨d'', h1, h2⟩ := unflatten_lookup hok hf (cs' := cs.map f) (by simp)
    rw [h1] at h
    cases h
    rw [h2]
    by_cases hfi : k ∈ c.fields
    · rw [if_pos hfi, if_pos hfi]
      by_cases hs : k ∈ c.static
      · rw [if_pos hs, if_pos hs]
      · rw [if_neg hs, if_neg hs]
        exact zip_children_lookup hok hf f hfi hs
    · rw [if_neg hfi, if_neg hfi]

/-- It raises only if flattening does. -/
theorem tree_map_total {hashable : V → Bool} {c : Class} {d : Attrs V} (hok : Ok c d) (f : V → V) :
    (treeMap hashable c f d).isSome = (flatten hashable c d).isSome := by
  unfold treeMap
  cases hf : flatten hashable c d with
  | none => rfl
  | some p =>
    obtain ⟨cs, aux⟩ := p
    obtain ⟨d', h1, _⟩ := unflatten_lookup hok hf (cs' := cs.map f) (by simp)
    simp only [Option.bind_some, h1]
    rfl

/-- **The flattening depends only on the attributes**, not on the order in which they were set or on what has been cached. -/
theorem flatten_same {hashable : V → Bool} {c : Class} {d d' : Attrs V} (h : Ok c d) (h' : Ok c d') (hs : SameAttrs c d d') :
    flatten hashable c d = flatten hashable c d' := by
  have ho := orderedKeys_same h h' hs
  have hl : ∀ k ∈ orderedKeys c d, d.lookup k = d'.lookup k := fun k hk => hs k (mem_orderedKeys.1 hk).2
  have hempty : ∀ d : Attrs V, orderedKeys c d = [] → flatten hashable c d = if c.static = [] then some ([], .keys []) else some ([], .static [] []) := by
    intro d hd
    unfold flatten
    rw [hd]
    by_cases e : d = []
    · rw [if_pos e]
    · rw [if_neg e]
      by_cases e' : c.static = []
      · rw [if_pos e', if_pos e']; rfl
      · rw [if_neg e', if_neg e']; rfl
  have hnil : ∀ d : Attrs V, orderedKeys c d ≠ [] → d ≠ [] := by
    intro d hd e
    subst e
    apply hd
    rw [List.eq_nil_iff_forall_not_mem]
    intro k hk
    rw [mem_orderedKeys] at hk
    exact absurd hk.1 (by simp)
  by_cases he : orderedKeys c d = []
  · rw [hempty d he, hempty d' (ho ▸ he)]
  · unfold flatten
    rw [if_neg (hnil d he), if_neg (hnil d' (ho ▸ he)), ← ho]
    dsimp only
    have e1 : ∀ l : List String, (∀ k ∈ l, k ∈ orderedKeys c d) → l.mapM (fun k => d.lookup k) = l.mapM fun k => d'.lookup k := fun l hl' =>
      mapM_congr fun k hk => hl k (hl' k hk)
    have e2 : ∀ l : List String, (∀ k ∈ l, k ∈ orderedKeys c d) →
        (l.mapM fun k => (d.lookup k).map fun v => (k, v)) = l.mapM fun k => (d'.lookup k).map fun v => (k, v) := fun l hl' =>
      mapM_congr fun k hk => by rw [hl k (hl' k hk)]
    rw [e1 _ fun k hk => hk, e1 _ fun k hk => (List.mem_filter.1 hk).1, e2 _ fun k hk => (List.mem_filter.1 hk).1]

/-- **The two flattening functions agree**: same metadata, and the path entries are the names with the children. -/
theorem flattenWithKeys_eq (hashable : V → Bool) (c : Class) (d : Attrs V) :
    flattenWithKeys hashable c d = (flatten hashable c d).map fun p => (p.2.childNames.zip p.1, p.2) := by
  have key : ∀ l : List String, (l.mapM fun k => (d.lookup k).map fun v => (k, v)) = (l.mapM fun k => d.lookup k).map fun vs => l.zip vs := by
    intro l
    cases h : l.mapM (fun k => d.lookup k) with
    | some vs => exact mapM_pairs h
    | none =>
      cases h' : (l.mapM fun k => (d.lookup k).map fun v => (k, v)) with
      | none => rfl
      | some items => rw [(mapM_items h').2] at h; cases h
  unfold flattenWithKeys flatten
  by_cases hd : d = []
  · rw [if_pos hd, if_pos hd]
    by_cases hs : c.static = []
    · rw [if_pos hs, if_pos hs]; rfl
    · rw [if_neg hs, if_neg hs]; rfl
  · rw [if_neg hd, if_neg hd]
    by_cases hs : c.static = []
    · rw [if_pos hs, if_pos hs, key]
      cases (orderedKeys c d).mapM fun k => d.lookup k <;> rfl
    · rw [if_neg hs, if_neg hs]
      simp only
      cases ((orderedKeys c d).filter fun k => c.static.contains k).mapM (fun k => (d.lookup k).map fun v => (k, v)) with
      | none => rfl
      | some items =>
        simp only [Option.bind_some]
        by_cases ha : (items.all fun e => hashable e.2) = true
        · rw [if_pos ha, if_pos ha, key]
          cases ((orderedKeys c d).filter fun k => !c.static.contains k).mapM fun k => d.lookup k <;> rfl
        · rw [if_neg ha, if_neg ha]; rfl

/-- **The other direction**: for an object whose attributes are declared fields (and caches), any children put in its place are what flattening gives back, with
the same metadata (so a transformed object can be transformed again). -/
theorem unflatten_flatten {hashable : V → Bool} {c : Class} {d : Attrs V} (hok : Ok c d) (hx : ∀ k, Visible c d k → k ∈ c.fields) {cs cs' : List V} {aux : Aux V}
    (h : flatten hashable c d = some (cs, aux)) (hl : cs'.length = cs.length) :
    ∃ d', unflatten c aux cs' = some d' ∧ Ok c d' ∧ flatten hashable c d' = some (cs', aux) := by
  obtain ⟨d', h1, h2⟩ := unflatten_lookup hok h hl
  obtain ⟨c1, c2, c3, c4, c5, c6⟩ := flatten_children hok h
  have hok' : Ok c d' := by
    refine ⟨?_, hok.fields, hok.static⟩
    have : ∃ l, d' = setFields c l := by
      unfold unflatten at h1
      cases aux with
      | keys l => simp only at h1; split at h1 <;> cases h1; exact ⟨_, rfl⟩
      | static l i => simp only at h1; split at h1 <;> cases h1; exact ⟨_, rfl⟩
    obtain ⟨l, rfl⟩ := this
    unfold setFields
    rw [List.map_filterMap]
    have hfm : (c.fields.filterMap fun n => Option.map (fun e : String × V => e.1) ((dictGet l n).map fun v => (n, v))) =
        c.fields.filter fun n => (dictGet l n).isSome := by
      rw [← List.filterMap_eq_filter]
      congr 1
      funext n
      cases hdg : dictGet l n <;> simp [Option.guard, hdg]
    rw [hfm]
    exact hok.fields.filter _
  have hvis : ∀ k, (d'.lookup k).isSome = true ↔ k ∈ c.fields ∧ (d.lookup k).isSome = true := by
    intro k
    rw [h2]
    by_cases hf : k ∈ c.fields
    · rw [if_pos hf]
      by_cases hs : k ∈ c.static
      · rw [if_pos hs]; simp [hf]
      · rw [if_neg hs, lookup_isSome, map_fst_zip (by omega), c2]
        simp [Visible, hf, hs]
    · rw [if_neg hf]; simp [hf]
  have ho : orderedKeys c d' = orderedKeys c d := by
    have e1 : (c.fields.filter fun n => (d'.map (·.1)).contains n) = c.fields.filter fun n => (d.map (·.1)).contains n := by
      refine List.filter_congr fun n hn => ?_
      rw [Bool.eq_iff_iff, List.contains_iff_mem, List.contains_iff_mem, ← lookup_isSome, ← lookup_isSome, hvis]
      simp [hn]
    have e2 : ∀ d : Attrs V, (∀ k, Visible c d k → k ∈ c.fields) →
        ((d.map (·.1)).filter fun k => !(c.fields.filter fun n => (d.map (·.1)).contains n).contains k && !cacheKeys.contains k) = [] := by
      intro d hd
      rw [List.filter_eq_nil_iff]
      intro k hk hh
      simp only [Bool.and_eq_true, Bool.not_eq_true', List.contains_eq_mem, decide_eq_false_iff_not, List.mem_filter, decide_eq_true_eq, not_and] at hh
      exact hh.1 (hd k ⟨lookup_isSome.2 hk, Or.inr hh.2⟩) hk
    unfold orderedKeys
    simp only
    rw [e2 d hx, e2 d' fun k hk => ((hvis k).1 hk.1).1, e1]
  have hck : childKeys c d' = childKeys c d := by unfold childKeys; rw [ho]
  obtain ⟨s1, s2, s3, s4, s5⟩ := flatten_spec h
  refine ⟨d', h1, hok', ?_⟩
  have hne : flatten hashable c d' ≠ none := by
    rw [Ne, flatten_raises]
    rintro ⟨k, v, k1, k2, k3, k4⟩
    have hf := hok.static k k1
    rw [h2, if_pos hf, if_pos k1] at k3
    have : (k, v) ∈ aux.items := (c6 k v).2 ⟨k1, k3⟩
    have := s4 _ this
    simp only at this
    rw [k4] at this
    cases this
  cases hfl : flatten hashable c d' with
  | none => exact absurd hfl hne
  | some p =>
    obtain ⟨cs2, aux2⟩ := p
    obtain ⟨t1, t2, t3, t4, t5⟩ := flatten_spec hfl
    have hitems : aux2.items = aux.items := by
      rw [ho] at t3
      have : ((orderedKeys c d).filter fun k => c.static.contains k).mapM (fun k => (d'.lookup k).map fun v => (k, v)) =
          ((orderedKeys c d).filter fun k => c.static.contains k).mapM (fun k => (d.lookup k).map fun v => (k, v)) := by
        refine mapM_congr fun k hk => ?_
        have hk' : k ∈ c.static := by simpa using (List.mem_filter.1 hk).2
        rw [h2, if_pos (hok.static k hk'), if_pos hk']
      rw [this, s3, Option.some.injEq] at t3
      exact t3.symm
    have hnames : aux2.childNames = aux.childNames := by rw [t2, s2, hck]
    have haux : aux2 = aux := by
      cases aux with
      | keys l =>
        cases aux2 with
        | keys l' => simp only [Aux.childNames] at hnames; rw [hnames]
        | static l' i' => have := t5.2 (s5.1 ⟨_, rfl⟩); obtain ⟨_, hh⟩ := this; cases hh
      | static l i =>
        cases aux2 with
        | keys l' => have := s5.2 (t5.1 ⟨_, rfl⟩); obtain ⟨_, hh⟩ := this; cases hh
        | static l' i' => simp only [Aux.childNames, Aux.items] at hnames hitems; rw [hnames, hitems]
    have hcs : cs2 = cs' := by
      obtain ⟨m1, m2⟩ := mapM_lookup t1
      rw [hck] at m1 m2
      rw [← s2] at m1 m2
      refine List.ext_getElem? fun i => ?_
      by_cases hi : i < aux.childNames.length
      · have hg := List.getElem?_eq_getElem hi
        generalize aux.childNames[i] = k at hg
        have hkm := List.mem_of_getElem? hg
        have hkf := hx k ((c2 k).1 hkm).1
        have hks := ((c2 k).1 hkm).2
        rw [← m2 i k hg, h2, if_pos hkf, if_neg hks]
        have hi' : i < cs'.length := by omega
        rw [List.getElem?_eq_getElem hi']
        exact lookup_zip c1 hg (List.getElem?_eq_getElem hi')
      · rw [List.getElem?_eq_none (by omega), List.getElem?_eq_none (by omega)]
    rw [haux, hcs]

/-- **When JAX retraces**: two objects with children for the same fields get the same metadata iff their static fields are equal. -/
theorem aux_eq_iff {hashable : V → Bool} {c : Class} {d d' : Attrs V} (hok : Ok c d) (hok' : Ok c d') {cs cs' : List V} {aux aux' : Aux V}
    (h : flatten hashable c d = some (cs, aux)) (h' : flatten hashable c d' = some (cs', aux')) (hsame : ∀ k, Visible c d k ↔ Visible c d' k) :
    aux = aux' ↔ ∀ k ∈ c.static, d.lookup k = d'.lookup k := by
  obtain ⟨s1, s2, s3, s4, s5⟩ := flatten_spec h
  obtain ⟨t1, t2, t3, t4, t5⟩ := flatten_spec h'
  obtain ⟨_, _, _, _, _, c6⟩ := flatten_children hok h
  obtain ⟨_, _, _, _, _, e6⟩ := flatten_children hok' h'
  have ho : orderedKeys c d = orderedKeys c d' := by
    have hmem : ∀ k, k ∈ c.fields ∨ k ∉ cacheNames → (k ∈ d.map (·.1) ↔ k ∈ d'.map (·.1)) := fun k hk => by
      have := hsame k
      simp only [Visible, hk, and_true] at this
      rw [← lookup_isSome, ← lookup_isSome, this]
    have hseen : (c.fields.filter fun n => (d.map (·.1)).contains n) = c.fields.filter fun n => (d'.map (·.1)).contains n := by
      refine List.filter_congr fun n hn => ?_
      rw [Bool.eq_iff_iff, List.contains_iff_mem, List.contains_iff_mem]
      exact hmem n (Or.inl hn)
    unfold orderedKeys
    simp only
    rw [hseen]
    congr 1
    refine sortKeys_perm ((List.perm_ext_iff_of_nodup (hok.attrs.filter _) (hok'.attrs.filter _)).2 fun k => ?_)
    simp only [List.mem_filter, Bool.and_eq_true, Bool.not_eq_true', List.contains_eq_mem, decide_eq_false_iff_not]
    constructor
    · rintro ⟨h1, h2, h3⟩; exact ⟨(hmem k (Or.inr h3)).1 h1, h2, h3⟩
    · rintro ⟨h1, h2, h3⟩; exact ⟨(hmem k (Or.inr h3)).2 h1, h2, h3⟩
  constructor
  · intro e k hk
    subst e
    cases hl : d.lookup k with
    | some v => exact (((e6 k v).1 ((c6 k v).2 ⟨hk, hl⟩)).2).symm
    | none =>
      cases hl' : d'.lookup k with
      | none => rfl
      | some v =>
        have := ((c6 k v).1 ((e6 k v).2 ⟨hk, hl'⟩)).2
        rw [hl] at this
        cases this
  · intro hst
    have hitems : aux.items = aux'.items := by
      rw [← ho] at t3
      have : ((orderedKeys c d).filter fun k => c.static.contains k).mapM (fun k => (d'.lookup k).map fun v => (k, v)) =
          ((orderedKeys c d).filter fun k => c.static.contains k).mapM (fun k => (d.lookup k).map fun v => (k, v)) := by
        refine mapM_congr fun k hk => ?_
        have hk' : k ∈ c.static := by simpa using (List.mem_filter.1 hk).2
        rw [hst k hk']
      rw [this, s3, Option.some.injEq] at t3
      exact t3
    have hnames : aux.childNames = aux'.childNames := by rw [t2, s2]; unfold childKeys; rw [ho]
    cases aux with
    | keys l =>
      cases aux' with
      | keys l' => simp only [Aux.childNames] at hnames; rw [hnames]
      | static l' i' => have := t5.2 (s5.1 ⟨_, rfl⟩); obtain ⟨_, hh⟩ := this; cases hh
    | static l i =>
      cases aux' with
      | keys l' => have := s5.2 (t5.1 ⟨_, rfl⟩); obtain ⟨_, hh⟩ := this; cases hh
      | static l' i' => simp only [Aux.childNames, Aux.items] at hnames hitems; rw [hnames, hitems]

/-! ## `replace`, `to_tuple`, `from_tuple` -/

/-- **`replace`** changes exactly the fields named (each once), for an object that has all its fields; naming anything else raises. -/
theorem replace_spec {c : Class} {d : Attrs V} (hok : Ok c d) (hfull : ∀ k ∈ c.fields, (d.lookup k).isSome = true) {kw : List (String × V)}
    (hkw : (kw.map (·.1)).Nodup) :
    (replace c d kw = none ↔ ∃ e ∈ kw, e.1 ∉ c.fields) ∧
    ∀ d', replace c d kw = some d' → ∀ k, d'.lookup k = if k ∈ c.fields then (kw.lookup k).or (d.lookup k) else none := by
  obtain ⟨rest, hrest⟩ := mapM_some (f := fun n => (d.lookup n).map fun v => (n, v)) (l := c.fields.filter fun n => !(kw.map (·.1)).contains n)
    fun k hk => by rw [Option.isSome_map]; exact hfull k (List.mem_filter.1 hk).1
  obtain ⟨r1, r2⟩ := mapM_items hrest
  obtain ⟨r3, r4⟩ := mapM_lookup hrest
  have hnr : (rest.map (·.1)).Nodup := by rw [r1]; exact hok.fields.filter _
  have hnd : ((kw ++ rest).map (·.1)).Nodup := by
    rw [List.map_append, List.nodup_append]
    refine ⟨hkw, hnr, fun a ha b hb e => ?_⟩
    subst e
    rw [r1, List.mem_filter] at hb
    simp only [Bool.not_eq_true', List.contains_eq_mem, decide_eq_false_iff_not] at hb
    exact hb.2 ha
  have hlook : ∀ k ∈ c.fields, (kw ++ rest).lookup k = (kw.lookup k).or (d.lookup k) := by
    intro k hk
    rw [List.lookup_append]
    cases hl : kw.lookup k with
    | some v => rfl
    | none =>
      rw [Option.none_or, Option.none_or]
      have hk' : k ∈ c.fields.filter fun n => !(kw.map (·.1)).contains n := by
        rw [List.mem_filter]
        rw [lookup_none] at hl
        exact ⟨hk, by simpa using hl⟩
      obtain ⟨i, hi⟩ := List.mem_iff_getElem?.1 hk'
      have h4 := r4 i k hi
      have hs := hfull k hk
      cases hl' : d.lookup k with
      | none => rw [hl'] at hs; cases hs
      | some v =>
        rw [hl'] at h4
        exact (lookup_mem hnr).2 (List.mem_of_getElem? h4.symm)
  unfold replace
  rw [hrest]
  simp only [Option.bind_some]
  unfold init
  rw [if_neg (by simp)]
  have hany : ((kw ++ rest).any fun e => !(c.fields.drop ([] : List V).length).contains e.1) = true ↔ ∃ e ∈ kw, e.1 ∉ c.fields := by
    rw [List.any_eq_true]
    simp only [List.length_nil, List.drop_zero, Bool.not_eq_true', List.contains_eq_mem, decide_eq_false_iff_not, List.mem_append]
    constructor
    · rintro ⟨e, he | he, hh⟩
      · exact ⟨e, he, hh⟩
      · exfalso
        have : e.1 ∈ rest.map (·.1) := List.mem_map.2 ⟨e, he, rfl⟩
        rw [r1, List.mem_filter] at this
        exact hh this.1
    · rintro ⟨e, he, hh⟩
      exact ⟨e, Or.inl he, hh⟩
  have hsome : ∀ n ∈ c.fields, ((((c.fields.zip ([] : List V)).lookup n).or (dictGet (kw ++ rest) n)).map fun v => (n, v)).isSome = true := by
    intro n hn
    rw [dictGet_eq hnd, hlook n hn]
    simp only [List.zip_nil_right, List.lookup_nil, Option.none_or, Option.isSome_map]
    cases kw.lookup n with
    | some v => rfl
    | none => simpa using hfull n hn
  obtain ⟨d'', hd''⟩ := mapM_some hsome
  by_cases ha : ((kw ++ rest).any fun e => !(c.fields.drop ([] : List V).length).contains e.1) = true
  · rw [if_pos ha]
    exact ⟨⟨fun _ => hany.1 ha, fun _ => rfl⟩, fun d' h => by cases h⟩
  · rw [if_neg ha, hd'']
    refine ⟨⟨fun h => (by cases h), fun h => absurd (hany.2 h) ha⟩, fun d' h k => ?_⟩
    cases h
    obtain ⟨m1, m2⟩ := mapM_lookup hd''
    have hkeys : d''.map (·.1) = c.fields := by
      refine List.ext_getElem? fun i => ?_
      rw [List.getElem?_map]
      by_cases hi : i < c.fields.length
      · have hg := List.getElem?_eq_getElem hi
        generalize c.fields[i] = n at hg
        have h4 := m2 i n hg
        rw [← h4, hg]
        have := hsome n (List.mem_of_getElem? hg)
        cases hh : (((c.fields.zip ([] : List V)).lookup n).or (dictGet (kw ++ rest) n)) with
        | none => rw [hh] at this; cases this
        | some v => rfl
      · rw [List.getElem?_eq_none (by omega), List.getElem?_eq_none (by omega)]; rfl
    have hndd : (d''.map (·.1)).Nodup := by rw [hkeys]; exact hok.fields
    by_cases hk : k ∈ c.fields
    · rw [if_pos hk, ← hlook k hk, ← dictGet_eq hnd]
      obtain ⟨i, hi⟩ := List.mem_iff_getElem?.1 hk
      have h4 := m2 i k hi
      simp only [List.zip_nil_right, List.lookup_nil, Option.none_or] at h4
      have hs := hsome k hk
      simp only [List.zip_nil_right, List.lookup_nil, Option.none_or, Option.isSome_map] at hs
      cases hg : dictGet (kw ++ rest) k with
      | none => rw [hg] at hs; cases hs
      | some v =>
        rw [hg] at h4
        exact (lookup_mem hndd).2 (List.mem_of_getElem? h4.symm)
    · rw [if_neg hk, lookup_none, hkeys]
      exact hk

/-- **`to_tuple`** of an object that has all its fields: as many values as the class has fields, the one at position `i` being the value of the
`i`-th declared field, whatever the order in which the attributes were set. -/
theorem to_tuple_spec {c : Class} {d : Attrs V} (hfull : ∀ k ∈ c.fields, (d.lookup k).isSome = true) :
    ∃ vs : List V, toTuple c d = some vs ∧ vs.length = c.fields.length ∧ ∀ (i : Nat) (n : String), c.fields[i]? = some n → vs[i]? = d.lookup n := by
  obtain ⟨vs, hvs⟩ := mapM_some (f := fun n => d.lookup n) (l := c.fields) hfull
  obtain ⟨m1, m2⟩ := mapM_lookup hvs
  exact ⟨vs, hvs, m1, fun i n hi => (m2 i n hi).symm⟩

/-- Non-vacuity, with the attributes set in another order than declared. -/
example : toTuple (V := Nat) ⟨["x", "y"], []⟩ [("y", 2), ("x", 1)] = some [1, 2] := by decide +kernel

/-- **`from_tuple` does not invert `to_tuple`**: for every class with two or more fields it raises, whatever the tuple. -/
theorem from_tuple_false (zipObj : List (String × V) → V) (c : Class) (hf : c.fields.Nodup) (h2 : 2 ≤ c.fields.length) (args : List V) :
    fromTuple zipObj c args = none := by
  unfold fromTuple init
  obtain ⟨fs, st⟩ := c
  simp only at hf h2 ⊢
  match fs, hf, h2 with
  | a :: b :: fs, hf, _ =>
    rw [if_neg (by simp), if_neg (by simp)]
    have hab : b ≠ a := fun e => by subst e; simp at hf
    have : (b == a) = false := by simpa using hab
    rw [List.mapM_cons, List.mapM_cons]
    have e : (List.zip (a :: b :: fs) [zipObj ((a :: b :: fs).zip args)]) = [(a, zipObj ((a :: b :: fs).zip args))] := by simp
    rw [e]
    simp only [List.lookup_cons, this, List.lookup_nil, dictGet, List.reverse_nil, Option.or_none, Option.map_none]
    simp

/-- An attribute that is not a declared field is flattened into a child but lost by unflattening. -/
theorem extra_attribute_lost : flatten (V := Nat) (fun _ => true) ⟨["a"], []⟩ [("a", 1), ("note", 2)] = some ([1, 2], .keys ["a", "note"]) ∧
    unflatten (V := Nat) ⟨["a"], []⟩ (.keys ["a", "note"]) [1, 2] = some [("a", 1)] := by
  refine ⟨?_, by decide +kernel⟩
  have h1 : orderedKeys (V := Nat) ⟨["a"], []⟩ [("a", 1), ("note", 2)] = ["a", "note"] := by decide +kernel
  unfold flatten
  rw [h1]
  rfl

/-- Non-trivial case: a stack-like class with one static field, an object whose attributes were set in another order and that has a cached shape. -/
example : Ok (V := Nat) ⟨["max_size", "size", "vals"], ["max_size"]⟩ [("vals", 7), ("_shape_cache", 0), ("max_size", 10), ("size", 3)] :=
  ⟨by decide, by decide, by decide⟩

example : (flatten (V := Nat) (fun _ => true) ⟨["max_size", "size", "vals"], ["max_size"]⟩ [("vals", 7), ("_shape_cache", 0), ("max_size", 10), ("size", 3)]).map (·.1) =
    some [3, 7] := by decide +kernel

end Pytree
