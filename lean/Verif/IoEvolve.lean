import Verif.IoProps

/-!
# C91: loading a file after the class definition has changed

The file is written from an instance of a class `c` and read when `importlib` finds a class `c'` under the same name.
-/

namespace Io

open Agg Bitpack

/-! ## Specification -/

/-- The declaration at a path of field names (`["a", "b"]` for `x.a.b`). -/
def declAt : Cls → List String → Option Desc
  | .nil, _ => none
  | _, [] => none
  | .leaf n d r, m :: q => if m = n then (if q = [] then some d else none) else declAt r (m :: q)
  | .nested n s r, m :: q => if m = n then declAt s q else declAt r (m :: q)

/-- The array at a path of field names. -/
def arrAt : Inst Arr → List String → Option Arr
  | .nil, _ => none
  | _, [] => none
  | .leaf n a r, m :: q => if m = n then (if q = [] then some a else none) else arrAt r (m :: q)
  | .nested n s r, m :: q => if m = n then arrAt s q else arrAt r (m :: q)

/-- No field, at any depth, is called `npy` or `__xtructure_bitpack__`: such a name makes the keys of the file ambiguous. -/
def Clean : Cls → Prop
  | .nil => True
  | .leaf n _ r => n ≠ "npy" ∧ n ≠ "__xtructure_bitpack__" ∧ Clean r
  | .nested n s r => n ≠ "npy" ∧ n ≠ "__xtructure_bitpack__" ∧ Clean s ∧ Clean r

/-! ## One level -/

/-- A field of an instance together with its declaration. -/
inductive Field where
  | leaf (d : Desc) (a : Arr)
  | sub (c : Cls) (x : Inst Arr)

def field : Cls → Inst Arr → String → Option Field
  | .leaf m d cr, .leaf _ a r, n => if n = m then some (.leaf d a) else field cr r n
  | .nested m cs cr, .nested _ y r, n => if n = m then some (.sub cs y) else field cr r n
  | _, _, _ => none

theorem field_names {c : Cls} {x : Inst Arr} {n : String} (h : n ∉ names c) : field c x n = none := by
  induction c generalizing x with
  | nil => rfl
  | leaf m d r ih =>
    simp only [names, List.mem_cons, not_or] at h
    cases x <;> simp only [field]
    rw [if_neg h.1]
    exact ih h.2
  | nested m s r _ ih =>
    simp only [names, List.mem_cons, not_or] at h
    cases x <;> simp only [field]
    rw [if_neg h.1]
    exact ih h.2

theorem field_path {c : Cls} {x : Inst Arr} (hx : IsInst c x) (n : String) (q : List String) :
    match field c x n with
    | none => declAt c (n :: q) = none ∧ arrAt x (n :: q) = none
    | some (.leaf d a) => declAt c (n :: q) = (if q = [] then some d else none) ∧ arrAt x (n :: q) = (if q = [] then some a else none)
    | some (.sub cs y) => declAt c (n :: q) = declAt cs q ∧ arrAt x (n :: q) = arrAt y q := by
  induction c generalizing x with
  | nil => cases x with
    | nil => exact ⟨rfl, rfl⟩
    | leaf => exact hx.elim
    | nested => exact hx.elim
  | leaf m d r ih => cases x with
    | nil => exact hx.elim
    | nested => exact hx.elim
    | leaf m' a y =>
      obtain ⟨rfl, _, hy⟩ := hx
      by_cases h : n = m
      · simp only [field, declAt, arrAt, if_pos h, and_self]
      · simp only [field, declAt, arrAt, if_neg h]
        exact ih hy
  | nested m s r _ ih => cases x with
    | nil => exact hx.elim
    | leaf => exact hx.elim
    | nested m' y' y =>
      obtain ⟨rfl, _, hy⟩ := hx
      by_cases h : n = m
      · simp only [field, declAt, arrAt, if_pos h, and_self]
      · simp only [field, declAt, arrAt, if_neg h]
        exact ih hy

theorem field_sub {c : Cls} {x : Inst Arr} (hx : IsInst c x) (hw : WfNames c) (hc : Clean c) {n : String} {cs : Cls} {y : Inst Arr} (h : field c x n = some (.sub cs y)) :
    IsInst cs y ∧ WfNames cs ∧ Clean cs := by
  induction c generalizing x with
  | nil => cases x <;> cases h
  | leaf m d r ih => cases x with
    | nil => cases h
    | nested => cases h
    | leaf m' a z =>
      simp only [field] at h
      by_cases hn : n = m
      · rw [if_pos hn] at h; cases h
      · rw [if_neg hn] at h; exact ih hx.2.2 hw.2.2 hc.2.2 h
  | nested m s r _ ih => cases x with
    | nil => cases h
    | leaf => cases h
    | nested m' z' z =>
      simp only [field] at h
      by_cases hn : n = m
      · rw [if_pos hn] at h; cases h; exact ⟨hx.2.1, hw.2.2.1, hc.2.2.1⟩
      · rw [if_neg hn] at h; exact ih hx.2.2 hw.2.2.2 hc.2.2.2 h

theorem field_leaf {c : Cls} {x : Inst Arr} (hx : IsInst c x) {n : String} {d : Desc} {a : Arr} (h : field c x n = some (.leaf d a)) :
    a.data.length = size a.shape := by
  induction c generalizing x with
  | nil => cases x <;> cases h
  | leaf m d r ih => cases x with
    | nil => cases h
    | nested => cases h
    | leaf m' a z =>
      simp only [field] at h
      by_cases hn : n = m
      · rw [if_pos hn] at h; cases h; exact hx.2.1
      · rw [if_neg hn] at h; exact ih hx.2.2 h
  | nested m s r _ ih => cases x with
    | nil => cases h
    | leaf => cases h
    | nested m' z' z =>
      simp only [field] at h
      by_cases hn : n = m
      · rw [if_pos hn] at h; cases h
      · rw [if_neg hn] at h; exact ih hx.2.2 h

/-- What the file says about one name. -/
theorem zone_split {packed : Bool} {c : Cls} {p : Key} {x : Inst Arr} {F : Dict} (hw : WfNames c) (h : flatten packed c p x = some F) {n : String}
    (hn : NoDot n) :
    match field c x n with
    | none => ∀ k, Zone p n k → get F k = none
    | some (.leaf d a) => ∃ e, saveLeaf packed d (p ++ n.toList) a = some e ∧ ∀ k, Zone p n k → get F k = get e k
    | some (.sub cs y) => ∃ e, flatten packed cs (p ++ n.toList ++ ['.']) y = some e ∧ ∀ k, Zone p n k → get F k = get e k := by
  induction c generalizing x F with
  | nil =>
    cases x with
    | nil => simp only [flatten, Option.some.injEq] at h; subst h; exact fun k _ => rfl
    | leaf => cases h
    | nested => cases h
  | leaf m d cr ih =>
    cases x with
    | nil => cases h
    | nested => cases h
    | leaf m' a r =>
      simp only [flatten] at h
      cases he : saveLeaf packed d (p ++ m.toList) a with
      | none => rw [he] at h; cases h
      | some e =>
        cases hr : flatten packed cr p r with
        | none => rw [he, hr] at h; cases h
        | some e' =>
          rw [he, hr] at h
          simp only [Option.bind_some, Option.map_some, Option.some.injEq] at h
          subst h
          obtain ⟨u1, k1⟩ := saveLeaf_keys he
          obtain ⟨u2, k2⟩ := flatten_keys hr
          have hnd := noDot_names hw.2.2
          by_cases hnm : n = m
          · subst hnm
            simp only [field, if_pos rfl]
            refine ⟨e, he, fun k hz => ?_⟩
            rw [get_update u2]
            cases hg : get e' k with
            | none => rfl
            | some v =>
              obtain ⟨m, hm, hz'⟩ := k2 k (by rw [hg]; rfl)
              have := zone_disjoint hw.1 (hnd m hm) hz hz'
              subst this
              exact absurd hm hw.2.1
          · simp only [field, if_neg hnm]
            have hk : ∀ k, Zone p n k → get (update e e') k = get e' k := fun k hz => by
              rw [get_update u2]
              cases hg : get e' k with
              | some v => rfl
              | none =>
                cases hg' : get e k with
                | none => rfl
                | some v => exact absurd (zone_disjoint hw.1 hn (k1 k (by rw [hg']; rfl)) hz).symm hnm
            have := ih hw.2.2 hr
            cases hf : field cr r n with
            | none => rw [hf] at this; exact fun k hz => (hk k hz).trans (this k hz)
            | some f =>
              rw [hf] at this
              cases f with
              | leaf d' a' => obtain ⟨e2, h1, h2⟩ := this; exact ⟨e2, h1, fun k hz => (hk k hz).trans (h2 k hz)⟩
              | sub c' x' => obtain ⟨e2, h1, h2⟩ := this; exact ⟨e2, h1, fun k hz => (hk k hz).trans (h2 k hz)⟩
  | nested m cs cr _ ih =>
    cases x with
    | nil => cases h
    | leaf => cases h
    | nested m' s r =>
      simp only [flatten] at h
      cases he : flatten packed cs (p ++ m.toList ++ ['.']) s with
      | none => rw [he] at h; cases h
      | some e =>
        cases hr : flatten packed cr p r with
        | none => rw [he, hr] at h; cases h
        | some e' =>
          rw [he, hr] at h
          simp only [Option.bind_some, Option.map_some, Option.some.injEq] at h
          subst h
          obtain ⟨u1, k1⟩ := flatten_keys he
          obtain ⟨u2, k2⟩ := flatten_keys hr
          have hnd := noDot_names hw.2.2.2
          by_cases hnm : n = m
          · subst hnm
            simp only [field, if_pos rfl]
            refine ⟨e, he, fun k hz => ?_⟩
            rw [get_update u2]
            cases hg : get e' k with
            | none => rfl
            | some v =>
              obtain ⟨m, hm, hz'⟩ := k2 k (by rw [hg]; rfl)
              have := zone_disjoint hw.1 (hnd m hm) hz hz'
              subst this
              exact absurd hm hw.2.1
          · simp only [field, if_neg hnm]
            have hk : ∀ k, Zone p n k → get (update e e') k = get e' k := fun k hz => by
              rw [get_update u2]
              cases hg : get e' k with
              | some v => rfl
              | none =>
                cases hg' : get e k with
                | none => rfl
                | some v =>
                  obtain ⟨m2, _, hz'⟩ := k1 k (by rw [hg']; rfl)
                  exact absurd (zone_disjoint hw.1 hn (zone_sub hz') hz).symm hnm
            have := ih hw.2.2.2 hr
            cases hf : field cr r n with
            | none => rw [hf] at this; exact fun k hz => (hk k hz).trans (this k hz)
            | some f =>
              rw [hf] at this
              cases f with
              | leaf d' a' => obtain ⟨e2, h1, h2⟩ := this; exact ⟨e2, h1, fun k hz => (hk k hz).trans (h2 k hz)⟩
              | sub c' x' => obtain ⟨e2, h1, h2⟩ := this; exact ⟨e2, h1, fun k hz => (hk k hz).trans (h2 k hz)⟩

/-- The prefix of a field. -/
def DotPrefix (p : Key) : Prop := p = [] ∨ ∃ q, p = q ++ ['.']

theorem npz_clean {D : Dict} {p : Key} {n : String} (hn : NoDot n) (hy : n ≠ "npy") (hp : DotPrefix p) : npz D (p ++ n.toList) = get D (p ++ n.toList) := by
  refine npz_eq fun q hq => ?_
  have e : ".npy".toList = '.' :: ['n', 'p', 'y'] := by decide
  rw [e] at hq
  rcases List.append_eq_append_iff.1 hq with ⟨u, h1, h2⟩ | ⟨u, h1, h2⟩
  · exact absurd (by rw [h2]; simp) hn
  · cases u with
    | nil =>
      simp only [List.nil_append] at h2
      exact absurd (by rw [← h2]; simp) hn
    | cons c u =>
      simp only [List.cons_append, List.cons.injEq] at h2
      obtain ⟨rfl, h3⟩ := h2
      rcases hp with rfl | ⟨q', hq'⟩
      · simp at h1
      · have hu : u = [] := by
          cases hu' : u.reverse with
          | nil => simpa using hu'
          | cons c' w =>
            exfalso
            have hu2 : u = w.reverse ++ [c'] := by rw [← List.reverse_reverse u, hu', List.reverse_cons]
            rw [hq', hu2, ← List.cons_append, ← List.append_assoc] at h1
            have := (List.append_inj' h1 rfl).2
            simp only [List.cons.injEq, and_true] at this
            subst this
            have : '.' ∈ ['n', 'p', 'y'] := by rw [h3, hu2]; simp
            exact absurd this (by decide)
        subst hu
        exact absurd (String.toList_inj.1 (h3.symm.trans (by decide : ['n', 'p', 'y'] = "npy".toList))) hy

theorem bitpack_zone {p : Key} {n : String} {sfx : Key} (h : sfx = dataSfx ∨ sfx = shapeSfx ∨ sfx = bitsSfx ∨ sfx = dtypeSfx) :
    Zone (p ++ n.toList ++ ['.']) "__xtructure_bitpack__" (p ++ n.toList ++ sfx) := by
  rcases h with rfl | rfl | rfl | rfl
  · exact ⟨".data".toList, by rw [List.append_assoc (p ++ n.toList), List.append_assoc (p ++ n.toList)]; congr 1, Or.inr ⟨"data".toList, by decide⟩⟩
  · exact ⟨".shape".toList, by rw [List.append_assoc (p ++ n.toList), List.append_assoc (p ++ n.toList)]; congr 1, Or.inr ⟨"shape".toList, by decide⟩⟩
  · exact ⟨".bits".toList, by rw [List.append_assoc (p ++ n.toList), List.append_assoc (p ++ n.toList)]; congr 1, Or.inr ⟨"bits".toList, by decide⟩⟩
  · exact ⟨".dtype".toList, by rw [List.append_assoc (p ++ n.toList), List.append_assoc (p ++ n.toList)]; congr 1, Or.inr ⟨"dtype".toList, by decide⟩⟩

theorem noDot_bitpack : NoDot "__xtructure_bitpack__" := by unfold NoDot; decide

/-- Keys of an array field: its own, or below `__xtructure_bitpack__`. -/
theorem saveLeaf_keys' {packed : Bool} {d : Desc} {p : Key} {n : String} {a : Arr} {e : Dict} (h : saveLeaf packed d (p ++ n.toList) a = some e) :
    ∀ k, (get e k).isSome → k = p ++ n.toList ∨ Zone (p ++ n.toList ++ ['.']) "__xtructure_bitpack__" k := by
  intro k hk
  cases hb : bitpacked packed d with
  | none =>
    rw [saveLeaf_plain hb] at h
    cases h
    by_cases hh : k = p ++ n.toList
    · exact Or.inl hh
    · have : (k == p ++ n.toList) = false := by simpa using hh
      simp only [get, List.lookup_cons, this, List.lookup_nil] at hk
      cases hk
  | some bits =>
    rw [saveLeaf_packed hb] at h
    by_cases hs : a.shape.any (fun n => decide (2 ^ 31 ≤ n)) = true
    · rw [if_pos hs] at h; cases h
    · rw [if_neg hs] at h
      cases hp : pack a bits with
      | none => rw [hp] at h; cases h
      | some bytes =>
        rw [hp] at h
        cases h
        right
        unfold packedEntries at hk
        simp only [get_put] at hk
        by_cases c4 : k = p ++ n.toList ++ dtypeSfx
        · exact c4 ▸ bitpack_zone (by simp)
        by_cases c3 : k = p ++ n.toList ++ bitsSfx
        · exact c3 ▸ bitpack_zone (by simp)
        by_cases c2 : k = p ++ n.toList ++ shapeSfx
        · exact c2 ▸ bitpack_zone (by simp)
        by_cases c1 : k = p ++ n.toList ++ dataSfx
        · exact c1 ▸ bitpack_zone (by simp)
        rw [if_neg c4, if_neg c3, if_neg c2, if_neg c1] at hk
        cases hk

theorem zone_longer {p : Key} {n m : String} (h : Zone (p ++ n.toList ++ ['.']) m (p ++ n.toList)) : False := by
  obtain ⟨s, h, _⟩ := h
  have := congrArg List.length h
  simp only [List.length_append, List.length_cons, List.length_nil] at this
  omega

theorem clean_names {c : Cls} (h : Clean c) : ∀ n ∈ names c, n ≠ "npy" ∧ n ≠ "__xtructure_bitpack__" := by
  induction c with
  | nil => intro n hn; cases hn
  | leaf m d r ih =>
    intro n hn
    rcases List.mem_cons.1 hn with rfl | hn
    · exact ⟨h.1, h.2.1⟩
    · exact ih h.2.2 n hn
  | nested m s r ih1 ih2 =>
    intro n hn
    rcases List.mem_cons.1 hn with rfl | hn
    · exact ⟨h.1, h.2.1⟩
    · exact ih2 h.2.2.2 n hn

/-- No entry for an array field: nothing to load. -/
theorem loadLeaf_none {D : Dict} {p : Key} {n : String} {d' : Desc} (h0 : npz D (p ++ n.toList) = none) (h1 : get D (p ++ n.toList ++ dataSfx) = none) :
    loadLeaf d' D (p ++ n.toList) = none := by
  unfold loadLeaf
  rw [npz_of_last (getLast_sfx (p ++ n.toList)).1, h1, h0]
  rfl

/-! ## The loaded instance -/

/-- What `load` builds: field by field of the new class, by name. -/
def evolve (packed : Bool) (c : Cls) (x : Inst Arr) : Cls → Option (Inst Arr)
  | .nil => some .nil
  | .leaf n d' r =>
    match field c x n with
    | some (.leaf d a) => (loadedAs packed d d' a).bind fun b => (evolve packed c x r).map fun y => .leaf n b y
    | _ => none
  | .nested n s r =>
    (match field c x n with
      | some (.sub cs y) => evolve packed cs y s
      | _ => evolve packed .nil .nil s).bind fun z => (evolve packed c x r).map fun y => .nested n z y

theorem unflatten_evolve {packed : Bool} {c c' : Cls} {p : Key} {x : Inst Arr} {F D : Dict} (hw : WfNames c) (hw' : WfNames c') (hc : Clean c) (hc' : Clean c')
    (hx : IsInst c x) (hF : flatten packed c p x = some F) (hD : ∀ k n, n ∈ names c' → Zone p n k → get D k = get F k) (hp : DotPrefix p) :
    unflatten D c' p = evolve packed c x c' := by
  induction c' generalizing c p x F with
  | nil => rfl
  | leaf n d' r ih =>
    have hrest := ih hw hw'.2.2 hc hc'.2.2 hx hF (fun k m hm => hD k m (List.mem_cons_of_mem _ hm)) hp
    have hz : ∀ k, Zone p n k → get D k = get F k := fun k => hD k n List.mem_cons_self
    have hs := zone_split hw hF hw'.1
    have hnpz := npz_clean (D := D) hw'.1 hc'.1 hp
    simp only [unflatten, evolve]
    rw [hrest]
    have z0 := hz (p ++ n.toList) ⟨[], by simp, Or.inl rfl⟩
    have z1 := hz (p ++ n.toList ++ dataSfx) ⟨_, rfl, Or.inr sfx_dot.1⟩
    cases hf : field c x n with
    | none =>
      rw [hf] at hs
      dsimp only at hs
      rw [loadLeaf_none (by rw [hnpz, z0]; exact hs _ ⟨[], by simp, Or.inl rfl⟩) (by rw [z1]; exact hs _ ⟨_, rfl, Or.inr sfx_dot.1⟩)]
      rfl
    | some f =>
      rw [hf] at hs
      cases f with
      | leaf d a =>
        obtain ⟨e, h1, h2⟩ := hs
        dsimp only
        rw [loadLeaf_as (field_leaf hx hf) h1 (fun k hk => (hz k hk).trans (h2 k hk)) hnpz]
      | sub cs y =>
        obtain ⟨e, h1, h2⟩ := hs
        obtain ⟨_, hws, hcs⟩ := field_sub hx hw hc hf
        have kk := (flatten_keys h1).2
        rw [loadLeaf_none]
        · rfl
        · rw [hnpz, z0, h2 _ ⟨[], by simp, Or.inl rfl⟩]
          cases hg : get e (p ++ n.toList) with
          | none => rfl
          | some v =>
            obtain ⟨m, _, hzm⟩ := kk _ (by rw [hg]; rfl)
            exact (zone_longer hzm).elim
        · rw [z1, h2 _ ⟨_, rfl, Or.inr sfx_dot.1⟩]
          cases hg : get e (p ++ n.toList ++ dataSfx) with
          | none => rfl
          | some v =>
            obtain ⟨m, hm, hzm⟩ := kk _ (by rw [hg]; rfl)
            exact absurd (zone_disjoint (noDot_names hws m hm) noDot_bitpack hzm (bitpack_zone (Or.inl rfl))) (clean_names hcs m hm).2
  | nested n s r ih1 ih2 =>
    have hrest := ih2 hw hw'.2.2.2 hc hc'.2.2.2 hx hF (fun k m hm => hD k m (List.mem_cons_of_mem _ hm)) hp
    have hz : ∀ k, Zone p n k → get D k = get F k := fun k => hD k n List.mem_cons_self
    have hs := zone_split hw hF hw'.1
    have hp' : DotPrefix (p ++ n.toList ++ ['.']) := Or.inr ⟨_, rfl⟩
    have hnil : (∀ k m, m ∈ names s → Zone (p ++ n.toList ++ ['.']) m k → get F k = none) →
        unflatten D s (p ++ n.toList ++ ['.']) = evolve packed .nil .nil s := fun h =>
      ih1 (c := .nil) (x := .nil) (F := []) trivial hw'.2.2.1 trivial hc'.2.2.1 trivial rfl
        (fun k m hm hk => by rw [hz k (zone_sub hk), h k m hm hk]; rfl) hp'
    simp only [unflatten, evolve]
    rw [hrest]
    cases hf : field c x n with
    | none =>
      rw [hf] at hs
      dsimp only
      rw [hnil fun k m _ hk => hs k (zone_sub hk)]
    | some f =>
      rw [hf] at hs
      cases f with
      | leaf d a =>
        obtain ⟨e, h1, h2⟩ := hs
        dsimp only
        rw [hnil fun k m hm hk => ?_]
        rw [h2 k (zone_sub hk)]
        cases hg : get e k with
        | none => rfl
        | some v =>
          rcases saveLeaf_keys' h1 k (by rw [hg]; rfl) with rfl | hb
          · exact (zone_longer hk).elim
          · exact absurd (zone_disjoint (noDot_names hw'.2.2.1 m hm) noDot_bitpack hk hb) (clean_names hc'.2.2.1 m hm).2
      | sub cs y =>
        obtain ⟨e, h1, h2⟩ := hs
        obtain ⟨hxs, hws, hcs⟩ := field_sub hx hw hc hf
        dsimp only
        rw [ih1 hws hw'.2.2.1 hcs hc'.2.2.1 hxs h1 (fun k m _ hk => (hz k (zone_sub hk)).trans (h2 k (zone_sub hk))) hp']

/-! ## Paths -/

theorem loadedAs_size {packed : Bool} {d d' : Desc} {a b : Arr} (h : loadedAs packed d d' a = some b) (ha : a.data.length = size a.shape) :
    b.data.length = size b.shape := by
  unfold loadedAs at h
  cases hb : bitpacked packed d with
  | none =>
    rw [hb] at h
    dsimp only at h
    cases hd : a.dtype <;> rw [hd] at h <;> cases h <;> exact ha
  | some bits =>
    rw [hb] at h
    dsimp only at h
    cases hm : a.data.mapM fun v => cast d'.dtype (stored bits v) with
    | none => rw [hm] at h; cases h
    | some l =>
      rw [hm] at h
      cases h
      have : l.length = a.data.length := by
        have key : ∀ (f : Int → Option Int) (xs ys : List Int), xs.mapM f = some ys → ys.length = xs.length := by
          intro f xs
          induction xs with
          | nil => intro ys h; cases h; rfl
          | cons v xs ih =>
            intro ys h
            rw [List.mapM_cons] at h
            cases hv : f v with
            | none => rw [hv] at h; cases h
            | some w =>
              cases hxs : xs.mapM f with
              | none => rw [hv, hxs] at h; cases h
              | some zs => rw [hv, hxs] at h; cases h; simp [ih zs hxs]
        exact key _ _ _ hm
      show l.length = _
      rw [this]
      exact ha

/-- A path of the new class can be loaded from the old instance as `b`. -/
def LoadsAt (packed : Bool) (c : Cls) (x : Inst Arr) (q : List String) (d' : Desc) (b : Arr) : Prop :=
  ∃ d a, declAt c q = some d ∧ arrAt x q = some a ∧ loadedAs packed d d' a = some b

theorem evolve_inst {packed : Bool} {c c' : Cls} {x y : Inst Arr} (hw : WfNames c) (hc : Clean c) (hx : IsInst c x) (h : evolve packed c x c' = some y) :
    IsInst c' y := by
  induction c' generalizing c x y with
  | nil => cases h; exact trivial
  | leaf n d' r ih =>
    simp only [evolve] at h
    cases hf : field c x n with
    | none => rw [hf] at h; cases h
    | some f =>
      rw [hf] at h
      cases f with
      | sub => cases h
      | leaf d a =>
        dsimp only at h
        cases hb : loadedAs packed d d' a with
        | none => rw [hb] at h; cases h
        | some b =>
          cases hr : evolve packed c x r with
          | none => rw [hb, hr] at h; cases h
          | some z =>
            rw [hb, hr] at h
            cases h
            exact ⟨rfl, loadedAs_size hb (field_leaf hx hf), ih hw hc hx hr⟩
  | nested n s r ih1 ih2 =>
    simp only [evolve] at h
    cases hr : evolve packed c x r with
    | none =>
      rw [hr] at h
      generalize (match field c x n with
        | some (.sub cs y) => evolve packed cs y s
        | _ => evolve packed .nil .nil s) = o at h
      cases o <;> cases h
    | some z =>
      rw [hr] at h
      have hz := ih2 hw hc hx hr
      cases hf : field c x n with
      | none =>
        rw [hf] at h
        dsimp only at h
        cases hs : evolve packed .nil .nil s with
        | none => rw [hs] at h; cases h
        | some w => rw [hs] at h; cases h; exact ⟨rfl, ih1 (c := .nil) (x := .nil) trivial trivial trivial hs, hz⟩
      | some f =>
        rw [hf] at h
        cases f with
        | leaf d a =>
          dsimp only at h
          cases hs : evolve packed .nil .nil s with
          | none => rw [hs] at h; cases h
          | some w => rw [hs] at h; cases h; exact ⟨rfl, ih1 (c := .nil) (x := .nil) trivial trivial trivial hs, hz⟩
        | sub cs u =>
          obtain ⟨hxs, hws, hcs⟩ := field_sub hx hw hc hf
          dsimp only at h
          cases hs : evolve packed cs u s with
          | none => rw [hs] at h; cases h
          | some w => rw [hs] at h; cases h; exact ⟨rfl, ih1 hws hcs hxs hs, hz⟩

theorem decl_names {c : Cls} {n : String} {q : List String} {d : Desc} (h : declAt c (n :: q) = some d) : n ∈ names c := by
  induction c with
  | nil => cases h
  | leaf m d r ih =>
    by_cases hn : n = m
    · simp [names, hn]
    · simp only [declAt, if_neg hn] at h
      exact List.mem_cons_of_mem _ (ih h)
  | nested m s r _ ih =>
    by_cases hn : n = m
    · simp [names, hn]
    · simp only [declAt, if_neg hn] at h
      exact List.mem_cons_of_mem _ (ih h)

theorem declAt_nil (c : Cls) : declAt c [] = none := by cases c <;> rfl

theorem not_loadsAt_nil {packed : Bool} {q : List String} {d' : Desc} {b : Arr} (h : LoadsAt packed .nil .nil q d' b) : False := by
  obtain ⟨d, a, h, _⟩ := h
  cases h

/-- A path of at least two names loads through the nested instance of that name, or from nothing. -/
theorem loadsAt_sub {packed : Bool} {c : Cls} {x : Inst Arr} (hx : IsInst c x) (n : String) {q : List String} {d' : Desc} {b : Arr} (hq : q ≠ []) :
    LoadsAt packed c x (n :: q) d' b ↔ match field c x n with
      | some (.sub cs y) => LoadsAt packed cs y q d' b
      | _ => LoadsAt packed .nil .nil q d' b := by
  have := field_path hx n q
  unfold LoadsAt
  cases hf : field c x n with
  | none => rw [hf] at this; rw [this.1, this.2]; exact ⟨fun ⟨d, a, h, _⟩ => (by cases h), fun ⟨d, a, h, _⟩ => (by cases h)⟩
  | some f =>
    rw [hf] at this
    cases f with
    | leaf d a =>
      dsimp only at this ⊢
      rw [if_neg hq, if_neg hq] at this
      rw [this.1, this.2]
      exact ⟨fun ⟨d, a, h, _⟩ => (by cases h), fun ⟨d, a, h, _⟩ => (by cases h)⟩
    | sub cs y => rw [this.1, this.2]

theorem loadsAt_leaf {packed : Bool} {c : Cls} {x : Inst Arr} (hx : IsInst c x) (n : String) {d' : Desc} {b : Arr} :
    LoadsAt packed c x [n] d' b ↔ ∃ d a, field c x n = some (.leaf d a) ∧ loadedAs packed d d' a = some b := by
  have := field_path hx n []
  unfold LoadsAt
  cases hf : field c x n with
  | none => rw [hf] at this; rw [this.1, this.2]; exact ⟨fun ⟨d, a, h, _⟩ => (by cases h), fun ⟨d, a, h, _⟩ => (by cases h)⟩
  | some f =>
    rw [hf] at this
    cases f with
    | leaf d a =>
      dsimp only at this
      rw [if_pos rfl, if_pos rfl] at this
      rw [this.1, this.2]
      constructor
      · rintro ⟨d, a, h1, h2, h3⟩
        cases h1; cases h2
        exact ⟨_, _, rfl, h3⟩
      · rintro ⟨d, a, h1, h3⟩
        cases h1
        exact ⟨_, _, rfl, rfl, h3⟩
    | sub cs y =>
      rw [this.1, declAt_nil]
      exact ⟨fun ⟨d, a, h, _⟩ => (by cases h), fun ⟨d, a, h, _⟩ => (by cases h)⟩

theorem evolve_path {packed : Bool} {c c' : Cls} {x y : Inst Arr} (hw : WfNames c) (hc : Clean c) (hx : IsInst c x) (h : evolve packed c x c' = some y) :
    ∀ q d', declAt c' q = some d' → ∃ b, LoadsAt packed c x q d' b ∧ arrAt y q = some b := by
  induction c' generalizing c x y with
  | nil => intro q d' hd; cases hd
  | leaf n d0 r ih =>
    simp only [evolve] at h
    cases hf : field c x n with
    | none => rw [hf] at h; cases h
    | some f =>
      rw [hf] at h
      cases f with
      | sub => cases h
      | leaf d a =>
        dsimp only at h
        cases hb : loadedAs packed d d0 a with
        | none => rw [hb] at h; cases h
        | some b =>
          cases hr : evolve packed c x r with
          | none => rw [hb, hr] at h; cases h
          | some z =>
            rw [hb, hr] at h
            cases h
            intro q d' hd
            cases q with
            | nil => cases hd
            | cons m q =>
              simp only [declAt, arrAt] at hd ⊢
              by_cases hm : m = n
              · subst hm
                rw [if_pos rfl] at hd ⊢
                by_cases hq : q = []
                · subst hq
                  rw [if_pos rfl] at hd ⊢
                  cases hd
                  exact ⟨b, (loadsAt_leaf hx m).2 ⟨d, a, hf, hb⟩, rfl⟩
                · rw [if_neg hq] at hd; cases hd
              · rw [if_neg hm] at hd ⊢
                exact ih hw hc hx hr _ _ hd
  | nested n s r ih1 ih2 =>
    simp only [evolve] at h
    have key : ∀ o : Option (Inst Arr), (o.bind fun z => (evolve packed c x r).map fun y => Inst.nested n z y) = some y →
        (∀ w, o = some w → ∀ q d', declAt s q = some d' → q ≠ [] → ∃ b, LoadsAt packed c x (n :: q) d' b ∧ arrAt w q = some b) →
        ∀ q d', declAt (.nested n s r) q = some d' → ∃ b, LoadsAt packed c x q d' b ∧ arrAt y q = some b := by
      intro o ho hsub q d' hd
      cases o with
      | none => cases ho
      | some w =>
        cases hr : evolve packed c x r with
        | none => rw [hr] at ho; cases ho
        | some z =>
          rw [hr] at ho
          cases ho
          cases q with
          | nil => cases hd
          | cons m q =>
            simp only [declAt, arrAt] at hd ⊢
            by_cases hm : m = n
            · subst hm
              rw [if_pos rfl] at hd ⊢
              exact hsub w rfl q d' hd (fun e => by rw [e, declAt_nil] at hd; cases hd)
            · rw [if_neg hm] at hd ⊢
              exact ih2 hw hc hx hr _ _ hd
    cases hf : field c x n with
    | none =>
      rw [hf] at h
      refine key _ h fun w hwe q d' hd hq => ?_
      obtain ⟨b, hl, _⟩ := ih1 (c := .nil) (x := .nil) trivial trivial trivial hwe q d' hd
      exact (not_loadsAt_nil hl).elim
    | some f =>
      rw [hf] at h
      cases f with
      | leaf d a =>
        refine key _ h fun w hwe q d' hd hq => ?_
        obtain ⟨b, hl, _⟩ := ih1 (c := .nil) (x := .nil) trivial trivial trivial hwe q d' hd
        exact (not_loadsAt_nil hl).elim
      | sub cs u =>
        obtain ⟨hxs, hws, hcs⟩ := field_sub hx hw hc hf
        refine key _ h fun w hwe q d' hd hq => ?_
        obtain ⟨b, hl, h2⟩ := ih1 hws hcs hxs hwe q d' hd
        exact ⟨b, (loadsAt_sub hx n hq).2 (by rw [hf]; exact hl), h2⟩

theorem evolve_some {packed : Bool} {c c' : Cls} {x : Inst Arr} (hw : WfNames c) (hw' : WfNames c') (hc : Clean c) (hx : IsInst c x)
    (h : ∀ q d', declAt c' q = some d' → ∃ b, LoadsAt packed c x q d' b) : ∃ y, evolve packed c x c' = some y := by
  induction c' generalizing c x with
  | nil => exact ⟨_, rfl⟩
  | leaf n d0 r ih =>
    obtain ⟨z, hz⟩ := ih hw hw'.2.2 hc hx fun q d' hd => h q d' (by
      cases q with
      | nil => rw [declAt_nil] at hd; cases hd
      | cons m q =>
        have hm : m ≠ n := fun e => hw'.2.1 (e ▸ decl_names hd)
        simp only [declAt, if_neg hm]
        exact hd)
    obtain ⟨b, hb⟩ := h [n] d0 (by simp [declAt])
    obtain ⟨d, a, hf, hb⟩ := (loadsAt_leaf hx n).1 hb
    exact ⟨.leaf n b z, by simp only [evolve, hf, hb, hz, Option.bind_some, Option.map_some]⟩
  | nested n s r ih1 ih2 =>
    obtain ⟨z, hz⟩ := ih2 hw hw'.2.2.2 hc hx fun q d' hd => h q d' (by
      cases q with
      | nil => rw [declAt_nil] at hd; cases hd
      | cons m q =>
        have hm : m ≠ n := fun e => hw'.2.1 (e ▸ decl_names hd)
        simp only [declAt, if_neg hm]
        exact hd)
    have hs : ∀ q d', declAt s q = some d' → q ≠ [] ∧ ∃ b, LoadsAt packed c x (n :: q) d' b := fun q d' hd =>
      ⟨fun e => (by rw [e, declAt_nil] at hd; cases hd), h (n :: q) d' (by simp only [declAt, if_pos]; exact hd)⟩
    cases hf : field c x n with
    | none =>
      obtain ⟨w, hwe⟩ := ih1 (c := .nil) (x := .nil) trivial hw'.2.2.1 trivial trivial fun q d' hd => by
        obtain ⟨hq, b, hb⟩ := hs q d' hd
        have := (loadsAt_sub hx n hq).1 hb
        rw [hf] at this
        exact ⟨b, this⟩
      exact ⟨.nested n w z, by simp only [evolve, hf, hwe, hz, Option.bind_some, Option.map_some]⟩
    | some f =>
      cases f with
      | leaf d a =>
        obtain ⟨w, hwe⟩ := ih1 (c := .nil) (x := .nil) trivial hw'.2.2.1 trivial trivial fun q d' hd => by
          obtain ⟨hq, b, hb⟩ := hs q d' hd
          have := (loadsAt_sub hx n hq).1 hb
          rw [hf] at this
          exact ⟨b, this⟩
        exact ⟨.nested n w z, by simp only [evolve, hf, hwe, hz, Option.bind_some, Option.map_some]⟩
      | sub cs u =>
        obtain ⟨hxs, hws, hcs⟩ := field_sub hx hw hc hf
        obtain ⟨w, hwe⟩ := ih1 hws hw'.2.2.1 hcs hxs fun q d' hd => by
          obtain ⟨hq, b, hb⟩ := hs q d' hd
          have := (loadsAt_sub hx n hq).1 hb
          rw [hf] at this
          exact ⟨b, this⟩
        exact ⟨.nested n w z, by simp only [evolve, hf, hwe, hz, Option.bind_some, Option.map_some]⟩

/-! ## Files -/

/-- The dictionary in the file, away from the reserved names. -/
theorem load_evolve {fs fs' : Fs} {reg : String → String → Option Cls} {path : Key} {packed : Bool} {mod name : String} {c c' : Cls} {x : Inst Arr}
    (hw : WfNames c) (hw' : WfNames c') (hc : Clean c) (hc' : Clean c') (hx : IsInst c x) (hr : ∀ n ∈ names c', n ∉ reserved)
    (hreg : reg mod name = some c') (hpath : ".npz".toList <:+ path) (hs : save fs path packed mod name c x = some fs') :
    load fs' reg path = (evolve packed c x c').map fun y => ⟨mod, name, y⟩ := by
  unfold save at hs
  cases hF : flatten packed c [] x with
  | none => rw [hF] at hs; cases hs
  | some F =>
    rw [hF] at hs
    simp only [Option.bind_some] at hs
    cases hz : savez (put (put F moduleKey (.str mod)) classKey (.str name)) with
    | none => rw [hz] at hs; cases hs
    | some D =>
      rw [hz] at hs
      simp only [Option.map_some, Option.some.injEq] at hs
      subst hs
      have hnp : npzPath path = path := by
        unfold npzPath
        rw [if_pos (by rwa [List.isSuffixOf_iff_suffix])]
      have hDdef : D = (put (put F moduleKey (.str mod)) classKey (.str name)).filter fun e => decide (e.1 ≠ "allow_pickle".toList) := by
        unfold savez at hz
        split at hz
        · cases hz
        · cases hz; rfl
      have gm : get D moduleKey = some (.str mod) := by
        rw [hDdef, get_filter (by decide), get_put, if_neg (by decide), get_put, if_pos rfl]
      have gc : get D classKey = some (.str name) := by
        rw [hDdef, get_filter (by decide), get_put, if_pos rfl]
      have hDz : ∀ k n, n ∈ names c' → Zone [] n k → get D k = get F k := fun k n hn hzn => by
        have hnd := noDot_names hw' n hn
        have hne : ∀ m : String, m ∈ reserved → NoDot m → k ≠ m.toList := fun m hm hd e => by
          subst e
          exact hr n hn (by rw [zone_reserved hd hnd hzn]; exact hm)
        have e1 : k ≠ classKey := hne "__xtructure_class_name__" (by decide) (by unfold NoDot; decide)
        have e2 : k ≠ moduleKey := hne "__xtructure_class_module__" (by decide) (by unfold NoDot; decide)
        rw [hDdef, get_filter (hne "allow_pickle" (by decide) (by unfold NoDot; decide)), get_put, if_neg e1, get_put, if_neg e2]
      unfold load
      rw [hnp, lookup_head, if_pos rfl]
      simp only [Option.bind_some]
      rw [npz_of_last (by decide), npz_of_last (by decide), gm, gc]
      simp only [hreg, Option.bind_some]
      rw [unflatten_evolve hw hw' hc hc' hx hF hDz (Or.inl rfl)]

/-- **C91.**  A file written from an instance `x` of class `c` and loaded when the class of that name is `c'`: if loading succeeds, the result is an instance
of `c'`, and the array at every path of `c'` is the one `x` had at the same path, as stored and with the dtype `loadedAs` says. -/
theorem load_evolved {fs fs' : Fs} {reg : String → String → Option Cls} {path : Key} {packed : Bool} {mod name : String} {c c' : Cls} {x : Inst Arr} {l : Loaded}
    (hw : WfNames c) (hw' : WfNames c') (hc : Clean c) (hc' : Clean c') (hx : IsInst c x) (hr : ∀ n ∈ names c', n ∉ reserved)
    (hreg : reg mod name = some c') (hpath : ".npz".toList <:+ path) (hs : save fs path packed mod name c x = some fs') (hl : load fs' reg path = some l) :
    l.mod = mod ∧ l.name = name ∧ IsInst c' l.inst ∧
    ∀ q d', declAt c' q = some d' →
      ∃ d a b, declAt c q = some d ∧ arrAt x q = some a ∧ loadedAs packed d d' a = some b ∧ arrAt l.inst q = some b := by
  rw [load_evolve hw hw' hc hc' hx hr hreg hpath hs] at hl
  cases he : evolve packed c x c' with
  | none => rw [he] at hl; cases hl
  | some y =>
    rw [he] at hl
    cases hl
    refine ⟨rfl, rfl, evolve_inst hw hc hx he, fun q d' hd => ?_⟩
    obtain ⟨b, ⟨d, a, h1, h2, h3⟩, h4⟩ := evolve_path hw hc hx he q d' hd
    exact ⟨d, a, b, h1, h2, h3, h4⟩

/-- **C91, exceptions.**  Loading raises exactly if some path of the new class is not in the old one, or its array cannot be restored. -/
theorem load_evolved_raises {fs fs' : Fs} {reg : String → String → Option Cls} {path : Key} {packed : Bool} {mod name : String} {c c' : Cls} {x : Inst Arr}
    (hw : WfNames c) (hw' : WfNames c') (hc : Clean c) (hc' : Clean c') (hx : IsInst c x) (hr : ∀ n ∈ names c', n ∉ reserved)
    (hreg : reg mod name = some c') (hpath : ".npz".toList <:+ path) (hs : save fs path packed mod name c x = some fs') :
    load fs' reg path = none ↔
      ∃ q d', declAt c' q = some d' ∧ ∀ d a, declAt c q = some d → arrAt x q = some a → loadedAs packed d d' a = none := by
  rw [load_evolve hw hw' hc hc' hx hr hreg hpath hs, Option.map_eq_none_iff]
  constructor
  · intro h
    apply Classical.byContradiction
    intro hn
    obtain ⟨y, hy⟩ := evolve_some (packed := packed) hw hw' hc hx fun q d' hd => by
      apply Classical.byContradiction
      intro hnb
      refine hn ⟨q, d', hd, fun d a h1 h2 => ?_⟩
      cases h3 : loadedAs packed d d' a with
      | none => rfl
      | some b => exact (hnb ⟨b, d, a, h1, h2, h3⟩).elim
    rw [h] at hy
    cases hy
  · rintro ⟨q, d', hd, hn⟩
    cases he : evolve packed c x c' with
    | none => rfl
    | some y =>
      obtain ⟨b, ⟨d, a, h1, h2, h3⟩, _⟩ := evolve_path hw hc hx he q d' hd
      rw [hn d a h1 h2] at h3
      cases h3

/-! ## What this means for a user -/

theorem arr_of_decl {packed : Bool} {c : Cls} {x : Inst Arr} (hx : IsInst c x) (hf : AllFit packed c x) {q : List String} {d : Desc} (h : declAt c q = some d) :
    ∃ a, arrAt x q = some a ∧ Fits packed d a := by
  induction c generalizing x q with
  | nil => cases h
  | leaf n d0 r ih => cases x with
    | nil => exact hx.elim
    | nested => exact hx.elim
    | leaf m a z =>
      obtain ⟨rfl, _, hz⟩ := hx
      cases q with
      | nil => cases h
      | cons m q =>
        simp only [declAt, arrAt] at h ⊢
        by_cases hm : m = n
        · rw [if_pos hm] at h ⊢
          by_cases hq : q = []
          · rw [if_pos hq] at h ⊢
            cases h
            exact ⟨a, rfl, hf.1⟩
          · rw [if_neg hq] at h; cases h
        · rw [if_neg hm] at h ⊢
          exact ih hz hf.2 h
  | nested n s r ih1 ih2 => cases x with
    | nil => exact hx.elim
    | leaf => exact hx.elim
    | nested m y z =>
      obtain ⟨rfl, hy, hz⟩ := hx
      cases q with
      | nil => cases h
      | cons m q =>
        simp only [declAt, arrAt] at h ⊢
        by_cases hm : m = n
        · rw [if_pos hm] at h ⊢
          exact ih1 hy hf.1 h
        · rw [if_neg hm] at h ⊢
          exact ih2 hz hf.2 h

theorem loadedAs_self (packed : Bool) (d : Desc) (a : Arr) : loadedAs packed d d a = loaded packed d a := rfl

/-- **C91, fields removed or reordered.**  If every path of the new class was declared in the same way in the old one, an instance whose arrays fit the old
class loads, and every array is the saved one. -/
theorem load_fewer_fields {fs fs' : Fs} {reg : String → String → Option Cls} {path : Key} {packed : Bool} {mod name : String} {c c' : Cls} {x : Inst Arr}
    (hw : WfNames c) (hw' : WfNames c') (hc : Clean c) (hc' : Clean c') (hx : IsInst c x) (hr : ∀ n ∈ names c', n ∉ reserved)
    (hreg : reg mod name = some c') (hpath : ".npz".toList <:+ path) (hs : save fs path packed mod name c x = some fs') (hfit : AllFit packed c x)
    (hsub : ∀ q d', declAt c' q = some d' → declAt c q = some d') :
    ∃ l, load fs' reg path = some l ∧ IsInst c' l.inst ∧ ∀ q d', declAt c' q = some d' → arrAt l.inst q = arrAt x q := by
  cases hl : load fs' reg path with
  | none =>
    obtain ⟨q, d', hd, hn⟩ := (load_evolved_raises hw hw' hc hc' hx hr hreg hpath hs).1 hl
    obtain ⟨a, ha, hfa⟩ := arr_of_decl hx hfit (hsub q d' hd)
    have := hn d' a (hsub q d' hd) ha
    rw [loadedAs_self, loaded_of_fits hfa] at this
    cases this
  | some l =>
    obtain ⟨_, _, h1, h2⟩ := load_evolved hw hw' hc hc' hx hr hreg hpath hs hl
    refine ⟨l, rfl, h1, fun q d' hd => ?_⟩
    obtain ⟨d, a, b, g1, g2, g3, g4⟩ := h2 q d' hd
    rw [hsub q d' hd] at g1
    cases g1
    obtain ⟨a', ha, hfa⟩ := arr_of_decl hx hfit (hsub q d' hd)
    rw [g2] at ha
    cases ha
    rw [loadedAs_self, loaded_of_fits hfa] at g3
    cases g3
    rw [g4, g2]

/-- **C91, fields added.**  If the new class has a field, at any depth, that the old one did not have, loading raises. -/
theorem load_added_field {fs fs' : Fs} {reg : String → String → Option Cls} {path : Key} {packed : Bool} {mod name : String} {c c' : Cls} {x : Inst Arr}
    (hw : WfNames c) (hw' : WfNames c') (hc : Clean c) (hc' : Clean c') (hx : IsInst c x) (hr : ∀ n ∈ names c', n ∉ reserved)
    (hreg : reg mod name = some c') (hpath : ".npz".toList <:+ path) (hs : save fs path packed mod name c x = some fs')
    {q : List String} {d' : Desc} (hd : declAt c' q = some d') (hnew : declAt c q = none) : load fs' reg path = none :=
  (load_evolved_raises hw hw' hc hc' hx hr hreg hpath hs).2 ⟨q, d', hd, fun d a h _ => by rw [hnew] at h; cases h⟩

/-- **C91, declarations changed.**  A field that was written in packed form has the dtype of the new declaration; any other field keeps the dtype and the values
it was saved with, whatever the new declaration says. -/
theorem load_changed_dtype {fs fs' : Fs} {reg : String → String → Option Cls} {path : Key} {packed : Bool} {mod name : String} {c c' : Cls} {x : Inst Arr} {l : Loaded}
    (hw : WfNames c) (hw' : WfNames c') (hc : Clean c) (hc' : Clean c') (hx : IsInst c x) (hr : ∀ n ∈ names c', n ∉ reserved)
    (hreg : reg mod name = some c') (hpath : ".npz".toList <:+ path) (hs : save fs path packed mod name c x = some fs') (hl : load fs' reg path = some l)
    {q : List String} {d d' : Desc} (hd : declAt c q = some d) (hd' : declAt c' q = some d') :
    (bitpacked packed d = none → arrAt l.inst q = arrAt x q) ∧
    ∀ bits, bitpacked packed d = some bits → ∃ a b, arrAt x q = some a ∧ arrAt l.inst q = some b ∧ b.dtype = d'.dtype ∧ b.shape = a.shape ∧
      a.data.mapM (fun v => cast d'.dtype (stored bits v)) = some b.data := by
  obtain ⟨_, _, _, h2⟩ := load_evolved hw hw' hc hc' hx hr hreg hpath hs hl
  obtain ⟨d0, a, b, g1, g2, g3, g4⟩ := h2 q d' hd'
  rw [hd] at g1
  cases g1
  unfold loadedAs at g3
  refine ⟨fun hb => ?_, fun bits hb => ?_⟩
  · rw [hb] at g3
    dsimp only at g3
    rw [g4, g2]
    cases hdt : a.dtype <;> rw [hdt] at g3 <;> cases g3 <;> rfl
  · rw [hb] at g3
    dsimp only at g3
    cases hm : a.data.mapM fun v => cast d'.dtype (stored bits v) with
    | none => rw [hm] at g3; cases g3
    | some v =>
      rw [hm] at g3
      cases g3
      exact ⟨a, _, g2, g4, rfl, rfl, hm⟩

/-! ## Concrete cases -/

/-- The class before, with a packed field `a`, a plain field `b` and a nested field `s`, and after: `b` removed from the top, `s.u` reordered, the dtype of `a`
and of `s.v` changed. -/
def evOld : Cls := .leaf "a" ⟨.uint 8, some 3, false⟩ (.leaf "b" ⟨.float 32, none, false⟩
  (.nested "s" (.leaf "u" ⟨.int 32, none, false⟩ (.leaf "v" ⟨.uint 8, none, false⟩ .nil)) .nil))
def evNew : Cls := .nested "s" (.leaf "v" ⟨.uint 32, none, false⟩ (.leaf "u" ⟨.int 32, none, false⟩ .nil)) (.leaf "a" ⟨.int 32, some 5, false⟩ .nil)
def evInst : Inst Arr := .leaf "a" ⟨.uint 8, [2], [5, 7]⟩ (.leaf "b" ⟨.float 32, [], [77]⟩
  (.nested "s" (.leaf "u" ⟨.int 32, [1], [-3]⟩ (.leaf "v" ⟨.uint 8, [2], [1, 2]⟩ .nil)) .nil))

/-- **C91, the declared dtype is not enforced.**  The loaded instance of the new class has a `uint8` array in a field declared `uint32`. -/
theorem load_dtype_false :
    ¬ ∀ (fs fs' : Fs) (reg : String → String → Option Cls) (path : Key) (packed : Bool) (mod name : String) (c c' : Cls) (x : Inst Arr) (l : Loaded),
      WfNames c → WfNames c' → Clean c → Clean c' → IsInst c x → AllFit packed c x → (∀ n ∈ names c', n ∉ reserved) → reg mod name = some c' →
      ".npz".toList <:+ path → save fs path packed mod name c x = some fs' → load fs' reg path = some l →
      ∀ q d' b, declAt c' q = some d' → arrAt l.inst q = some b → b.dtype = d'.dtype := by
  intro h
  have := h [] _ (fun _ _ => some evNew) "x.npz".toList true "m" "C" evOld evNew evInst ⟨"m", "C", .nested "s" (.leaf "v" ⟨.uint 8, [2], [1, 2]⟩
    (.leaf "u" ⟨.int 32, [1], [-3]⟩ .nil)) (.leaf "a" ⟨.int 32, [2], [5, 7]⟩ .nil)⟩
    (by simp only [WfNames, evOld, NoDot, names]; decide) (by simp only [WfNames, evNew, NoDot, names]; decide)
    (by simp only [Clean, evOld]; decide) (by simp only [Clean, evNew]; decide) (by simp only [IsInst, evOld, evInst]; decide)
    (by
      simp only [AllFit, evOld, evInst, Fits, bitpacked, InRange]
      refine ⟨⟨trivial, by decide, by simp⟩, ⟨trivial, by simp, by simp⟩, ⟨⟨trivial, by simp, by simp⟩, ⟨trivial, by simp, by simp⟩, trivial⟩, trivial⟩)
    (by decide) rfl ⟨"x".toList, rfl⟩ rfl (by decide +kernel) ["s", "v"] ⟨.uint 32, none, false⟩ ⟨.uint 8, [2], [1, 2]⟩ (by decide) (by decide)
  exact absurd this (by decide)

/-- A field added below `s`: raises. -/
example : (save [] "x.npz".toList true "m" "C" evOld evInst).bind (fun fs => load fs (fun _ _ => some (.nested "s" (.leaf "w" ⟨.int 32, none, false⟩ .nil) .nil))
    "x.npz".toList) = none := by decide +kernel

/-- The name `npy` excluded by `Clean`: a new nested field `b` with a field `npy` reads the old array `b`. -/
example : ((save [] "x.npz".toList true "m" "C" evOld evInst).bind (fun fs => load fs (fun _ _ => some (.nested "b" (.leaf "npy" ⟨.int 32, none, false⟩ .nil) .nil))
    "x.npz".toList)).map (·.inst) = some (.nested "b" (.leaf "npy" ⟨.float 32, [], [77]⟩ .nil) .nil) := by decide +kernel

end Io
