import Verif.IoModel

/-!
# C49: `load` after `save`
-/

namespace Io

open Agg Bitpack

/-! ## Dictionaries -/

theorem get_map_put {d : Dict} {k : Key} {v : Ent} (k' : Key) (h : d.any (·.1 == k) = true) :
    get (d.map fun e => if e.1 = k then (k, v) else e) k' = if k' = k then some v else get d k' := by
  unfold get
  induction d with
  | nil => simp at h
  | cons e d ih =>
    obtain ⟨a, b⟩ := e
    simp only [List.map_cons]
    by_cases hak : a = k
    · subst hak
      simp only [if_true, List.lookup_cons]
      by_cases hk : k' = a
      · subst hk; simp
      · have hb : (k' == a) = false := by simpa using hk
        simp only [hb, if_neg hk]
        by_cases h' : d.any (·.1 == a) = true
        · rw [ih h', if_neg hk]
        · have : d.map (fun e => if e.1 = a then (a, v) else e) = d := by
            conv => rhs; rw [← List.map_id d]
            refine List.map_congr_left fun e he => ?_
            have : e.1 ≠ a := fun hh => h' (List.any_eq_true.2 ⟨e, he, by simpa using hh⟩)
            simp [this]
          rw [this]
    · simp only [if_neg hak, List.lookup_cons]
      have h' : d.any (·.1 == k) = true := by
        simp only [List.any_cons, Bool.or_eq_true, beq_iff_eq] at h
        rcases h with h | h
        · exact absurd h hak
        · exact h
      by_cases hk : k' = a
      · subst hk; simp [hak]
      · have hb : (k' == a) = false := by simpa using hk
        simp only [hb]
        exact ih h'

theorem get_append (d d' : Dict) (k : Key) : get (d ++ d') k = (get d k).or (get d' k) := by
  unfold get
  induction d with
  | nil => simp
  | cons e d ih =>
    obtain ⟨a, b⟩ := e
    simp only [List.cons_append, List.lookup_cons]
    by_cases h : (k == a) = true
    · simp [h]
    · simp only [Bool.not_eq_true] at h; simp only [h]; exact ih

theorem get_none_of_any {d : Dict} {k : Key} (h : ¬ d.any (·.1 == k) = true) : get d k = none := by
  unfold get
  induction d with
  | nil => rfl
  | cons e d ih =>
    obtain ⟨a, b⟩ := e
    simp only [List.any_cons, Bool.or_eq_true, not_or] at h
    have : (k == a) = false := by simpa using fun hh : k = a => h.1 (by simp [hh])
    simp only [List.lookup_cons, this]
    exact ih h.2

theorem get_put (d : Dict) (k k' : Key) (v : Ent) : get (put d k v) k' = if k' = k then some v else get d k' := by
  unfold put
  by_cases h : d.any (·.1 == k) = true
  · rw [if_pos h, get_map_put k' h]
  · rw [if_neg h, get_append]
    by_cases hk : k' = k
    · subst hk; rw [get_none_of_any h, if_pos rfl]; simp [get]
    · have : (k' == k) = false := by simpa using hk
      rw [if_neg hk]
      simp only [get, List.lookup_cons, this, List.lookup_nil, Option.or_none]

/-- No key occurs twice. -/
def Uniq (d : Dict) : Prop := (d.map (·.1)).Nodup

theorem uniq_put {d : Dict} (h : Uniq d) (k : Key) (v : Ent) : Uniq (put d k v) := by
  unfold put Uniq
  by_cases ha : d.any (·.1 == k) = true
  · rw [if_pos ha, List.map_map]
    have : ((fun e : Key × Ent => e.1) ∘ fun e => if e.1 = k then (k, v) else e) = fun e => e.1 := by
      funext e
      by_cases he : e.1 = k
      · simp [he]
      · simp [he]
    rw [this]
    exact h
  · rw [if_neg ha, List.map_append, List.nodup_append]
    refine ⟨h, by simp, fun a haa b hb => ?_⟩
    simp only [List.map_cons, List.map_nil, List.mem_singleton] at hb
    subst hb
    obtain ⟨e, he, rfl⟩ := List.mem_map.1 haa
    intro hh
    exact ha (List.any_eq_true.2 ⟨e, he, by simpa using hh⟩)

theorem uniq_update {d : Dict} (h : Uniq d) (d' : Dict) : Uniq (update d d') := by
  unfold update
  induction d' generalizing d with
  | nil => exact h
  | cons e d' ih => exact ih (uniq_put h _ _)

theorem get_update {d d' : Dict} (h : Uniq d') (k : Key) : get (update d d') k = (get d' k).or (get d k) := by
  unfold update
  induction d' generalizing d with
  | nil => rfl
  | cons e d' ih =>
    obtain ⟨a, b⟩ := e
    have h' := h
    simp only [Uniq, List.map_cons, List.nodup_cons] at h'
    rw [List.foldl_cons, ih h'.2, get_put]
    have hc : get ((a, b) :: d') k = if k = a then some b else get d' k := by
      unfold get
      by_cases hk : k = a
      · simp [hk]
      · have : (k == a) = false := by simpa using hk
        rw [if_neg hk]
        simp only [List.lookup_cons, this]
    rw [hc]
    by_cases hk : k = a
    · subst hk
      have : get d' k = none := by
        refine get_none_of_any fun hany => h'.1 ?_
        obtain ⟨e, he, hh⟩ := List.any_eq_true.1 hany
        simp only [beq_iff_eq] at hh
        subst hh
        exact List.mem_map.2 ⟨e, he, rfl⟩
      rw [this, if_pos rfl, if_pos rfl]
      rfl
    · rw [if_neg hk, if_neg hk]

theorem get_of_mem {d : Dict} {e : Key × Ent} (h : e ∈ d) : (get d e.1).isSome := by
  cases hg : get d e.1 with
  | some v => rfl
  | none =>
    exfalso
    unfold get at hg
    induction d with
    | nil => cases h
    | cons f d ih =>
      obtain ⟨f1, f2⟩ := f
      simp only [List.lookup_cons] at hg
      by_cases hk : (e.1 == f1) = true
      · rw [hk] at hg; cases hg
      · simp only [Bool.not_eq_true] at hk
        rw [hk] at hg
        rcases List.mem_cons.1 h with rfl | h
        · simp at hk
        · exact ih h hg

theorem npz_eq {d : Dict} {k : Key} (h : ∀ q, k = q ++ ".npy".toList → get d q = none) : npz d k = get d k := by
  unfold npz
  have : d.find? (fun e => decide (e.1 ++ ".npy".toList = k)) = none := by
    rw [List.find?_eq_none]
    intro e he hh
    have h1 := h e.1 (of_decide_eq_true hh).symm
    have h2 := get_of_mem he
    rw [h1] at h2
    cases h2
  rw [this]

/-! ## Keys -/

/-- The keys of a field: its own key, and everything below it. -/
def Zone (p : Key) (n : String) (k : Key) : Prop := ∃ s, k = p ++ n.toList ++ s ∧ (s = [] ∨ ∃ t, s = '.' :: t)

/-- Field names are identifiers: they contain no dot. -/
def NoDot (n : String) : Prop := '.' ∉ n.toList

theorem split_at_dot {a b s t : List Char} (ha : '.' ∉ a) (hb : '.' ∉ b) (hs : s = [] ∨ ∃ u, s = '.' :: u) (ht : t = [] ∨ ∃ u, t = '.' :: u)
    (h : a ++ s = b ++ t) : a = b ∧ s = t := by
  induction a generalizing b with
  | nil =>
    cases b with
    | nil => exact ⟨rfl, h⟩
    | cons c b =>
      exfalso
      rcases hs with rfl | ⟨u, rfl⟩
      · simp at h
      · simp only [List.nil_append, List.cons_append, List.cons.injEq] at h
        exact hb (List.mem_cons.2 (Or.inl h.1))
  | cons c a ih =>
    cases b with
    | nil =>
      exfalso
      rcases ht with rfl | ⟨u, rfl⟩
      · simp at h
      · simp only [List.nil_append, List.cons_append, List.cons.injEq] at h
        exact ha (List.mem_cons.2 (Or.inl h.1.symm))
    | cons c' b =>
      simp only [List.cons_append, List.cons.injEq] at h
      obtain ⟨h1, h2⟩ := ih (fun hh => ha (by simp [hh])) (fun hh => hb (by simp [hh])) h.2
      exact ⟨by rw [h.1, h1], h2⟩

theorem zone_disjoint {p : Key} {n m : String} {k : Key} (hn : NoDot n) (hm : NoDot m) (h : Zone p n k) (h' : Zone p m k) : n = m := by
  obtain ⟨s, h1, h2⟩ := h
  obtain ⟨t, h3, h4⟩ := h'
  rw [h1, List.append_assoc, List.append_assoc, List.append_cancel_left_eq] at h3
  exact String.toList_inj.1 (split_at_dot hn hm h2 h4 h3).1

/-- Field names of a class. -/
def names : Cls → List String
  | .nil => []
  | .leaf n _ r => n :: names r
  | .nested n _ r => n :: names r

/-- The class has distinct field names without dots, at every level. -/
def WfNames : Cls → Prop
  | .nil => True
  | .leaf n _ r => NoDot n ∧ n ∉ names r ∧ WfNames r
  | .nested n s r => NoDot n ∧ n ∉ names r ∧ WfNames s ∧ WfNames r

theorem noDot_names {c : Cls} (h : WfNames c) : ∀ n ∈ names c, NoDot n := by
  induction c with
  | nil => intro n hn; cases hn
  | leaf m d r ih =>
    intro n hn
    rcases List.mem_cons.1 hn with rfl | hn
    · exact h.1
    · exact ih h.2.2 n hn
  | nested m s r ih1 ih2 =>
    intro n hn
    rcases List.mem_cons.1 hn with rfl | hn
    · exact h.1
    · exact ih2 h.2.2.2 n hn

theorem sfx_dot : (∃ t, dataSfx = '.' :: t) ∧ (∃ t, shapeSfx = '.' :: t) ∧ (∃ t, bitsSfx = '.' :: t) ∧ ∃ t, dtypeSfx = '.' :: t :=
  ⟨⟨"__xtructure_bitpack__.data".toList, by decide⟩, ⟨"__xtructure_bitpack__.shape".toList, by decide⟩,
    ⟨"__xtructure_bitpack__.bits".toList, by decide⟩, ⟨"__xtructure_bitpack__.dtype".toList, by decide⟩⟩

/-- Is the field written in packed form? -/
def bitpacked (packed : Bool) (d : Desc) : Option Nat := if packed = true ∧ ¬ d.inMemory = true then d.bits else none

theorem saveLeaf_plain {packed : Bool} {d : Desc} (h : bitpacked packed d = none) (key : Key) (a : Arr) : saveLeaf packed d key a = some [(key, .arr a)] := by
  unfold saveLeaf
  unfold bitpacked at h
  cases hb : d.bits with
  | none => rfl
  | some bits =>
    simp only
    by_cases hc : packed = true ∧ ¬ d.inMemory = true
    · rw [if_pos hc, hb] at h; cases h
    · rw [if_neg hc]

/-- The four entries of a packed field. -/
def packedEntries (key : Key) (a : Arr) (bits : Nat) (bytes : List Nat) : Dict :=
  put (put (put (put [] (key ++ dataSfx) (.arr ⟨.uint 8, [bytes.length], bytes.map Int.ofNat⟩))
    (key ++ shapeSfx) (.arr ⟨.int 32, [a.shape.length], a.shape.map Int.ofNat⟩))
    (key ++ bitsSfx) (.arr ⟨.uint 8, [1], [(bits : Int)]⟩))
    (key ++ dtypeSfx) (.str (dtypeName a.dtype))

theorem saveLeaf_packed {packed : Bool} {d : Desc} {bits : Nat} (h : bitpacked packed d = some bits) (key : Key) (a : Arr) :
    saveLeaf packed d key a = if a.shape.any (fun n => decide (2 ^ 31 ≤ n)) then none else (pack a bits).map (packedEntries key a bits) := by
  unfold bitpacked at h
  by_cases hc : packed = true ∧ ¬ d.inMemory = true
  · rw [if_pos hc] at h
    unfold saveLeaf
    rw [h]
    simp only
    rw [if_pos hc]
    rfl
  · rw [if_neg hc] at h; cases h

theorem packedEntries_get (key : Key) (a : Arr) (bits : Nat) (bytes : List Nat) :
    get (packedEntries key a bits bytes) (key ++ dataSfx) = some (.arr ⟨.uint 8, [bytes.length], bytes.map Int.ofNat⟩) ∧
    get (packedEntries key a bits bytes) (key ++ shapeSfx) = some (.arr ⟨.int 32, [a.shape.length], a.shape.map Int.ofNat⟩) ∧
    get (packedEntries key a bits bytes) (key ++ bitsSfx) = some (.arr ⟨.uint 8, [1], [(bits : Int)]⟩) := by
  have h1 : dataSfx ≠ shapeSfx := by decide
  have h2 : dataSfx ≠ bitsSfx := by decide
  have h3 : dataSfx ≠ dtypeSfx := by decide
  have h4 : shapeSfx ≠ bitsSfx := by decide
  have h5 : shapeSfx ≠ dtypeSfx := by decide
  have h6 : bitsSfx ≠ dtypeSfx := by decide
  unfold packedEntries
  simp only [get_put, List.append_cancel_left_eq, h1, h2, h3, h4, h5, h6, if_false, if_true, and_self]

theorem packedEntries_uniq (key : Key) (a : Arr) (bits : Nat) (bytes : List Nat) : Uniq (packedEntries key a bits bytes) :=
  uniq_put (uniq_put (uniq_put (uniq_put (show Uniq [] from List.nodup_nil) _ _) _ _) _ _) _ _

theorem saveLeaf_keys {packed : Bool} {d : Desc} {p : Key} {n : String} {a : Arr} {e : Dict} (h : saveLeaf packed d (p ++ n.toList) a = some e) :
    Uniq e ∧ ∀ k, (get e k).isSome → Zone p n k := by
  obtain ⟨⟨t1, d1⟩, ⟨t2, d2⟩, ⟨t3, d3⟩, ⟨t4, d4⟩⟩ := sfx_dot
  cases hb : bitpacked packed d with
  | none =>
    rw [saveLeaf_plain hb] at h
    cases h
    refine ⟨by simp [Uniq], fun k hk => ⟨[], ?_, Or.inl rfl⟩⟩
    by_cases hh : k = p ++ n.toList
    · simp [hh]
    · have : (k == p ++ n.toList) = false := by simpa using hh
      simp only [get, List.lookup_cons, this, List.lookup_nil] at hk
      cases hk
  | some bits =>
    rw [saveLeaf_packed hb] at h
    by_cases hs : a.shape.any (fun n => decide (2 ^ 31 ≤ n)) = true
    · rw [if_pos hs] at h; cases h
    · rw [if_neg hs] at h
      cases hp : pack a bits with
      | none => rw [hp] at h; cases h
      | some bytes =>
        rw [hp] at h
        cases h
        refine ⟨packedEntries_uniq _ _ _ _, fun k hk => ?_⟩
        unfold packedEntries at hk
        simp only [get_put] at hk
        by_cases c4 : k = p ++ n.toList ++ dtypeSfx
        · exact ⟨_, c4, Or.inr ⟨_, d4⟩⟩
        by_cases c3 : k = p ++ n.toList ++ bitsSfx
        · exact ⟨_, c3, Or.inr ⟨_, d3⟩⟩
        by_cases c2 : k = p ++ n.toList ++ shapeSfx
        · exact ⟨_, c2, Or.inr ⟨_, d2⟩⟩
        by_cases c1 : k = p ++ n.toList ++ dataSfx
        · exact ⟨_, c1, Or.inr ⟨_, d1⟩⟩
        rw [if_neg c4, if_neg c3, if_neg c2, if_neg c1] at hk
        cases hk

theorem zone_sub {p : Key} {n m : String} {k : Key} (h : Zone (p ++ n.toList ++ ['.']) m k) : Zone p n k := by
  obtain ⟨s, h1, _⟩ := h
  exact ⟨'.' :: (m.toList ++ s), by rw [h1]; simp, Or.inr ⟨_, rfl⟩⟩

theorem flatten_keys {packed : Bool} {c : Cls} {p : Key} {x : Inst Arr} {F : Dict} (h : flatten packed c p x = some F) :
    Uniq F ∧ ∀ k, (get F k).isSome → ∃ n ∈ names c, Zone p n k := by
  induction c generalizing p x F with
  | nil =>
    cases x with
    | nil => simp only [flatten, Option.some.injEq] at h; subst h; exact ⟨List.nodup_nil, fun k hk => by cases hk⟩
    | leaf => cases h
    | nested => cases h
  | leaf n d cr ih =>
    cases x with
    | nil => cases h
    | nested => cases h
    | leaf n' a r =>
      simp only [flatten] at h
      cases he : saveLeaf packed d (p ++ n.toList) a with
      | none => rw [he] at h; cases h
      | some e =>
        cases hr : flatten packed cr p r with
        | none => rw [he, hr] at h; cases h
        | some e' =>
          rw [he, hr] at h
          simp only [Option.bind_some, Option.map_some, Option.some.injEq] at h
          subst h
          obtain ⟨u1, k1⟩ := saveLeaf_keys he
          obtain ⟨u2, k2⟩ := ih hr
          refine ⟨uniq_update u1 _, fun k hk => ?_⟩
          rw [get_update u2] at hk
          cases hg : get e' k with
          | some v =>
            obtain ⟨m, hm, hz⟩ := k2 k (by rw [hg]; rfl)
            exact ⟨m, by simp [names, hm], hz⟩
          | none => rw [hg] at hk; exact ⟨n, by simp [names], k1 k hk⟩
  | nested n cs cr ih1 ih2 =>
    cases x with
    | nil => cases h
    | leaf => cases h
    | nested n' s r =>
      simp only [flatten] at h
      cases he : flatten packed cs (p ++ n.toList ++ ['.']) s with
      | none => rw [he] at h; cases h
      | some e =>
        cases hr : flatten packed cr p r with
        | none => rw [he, hr] at h; cases h
        | some e' =>
          rw [he, hr] at h
          simp only [Option.bind_some, Option.map_some, Option.some.injEq] at h
          subst h
          obtain ⟨u1, k1⟩ := ih1 he
          obtain ⟨u2, k2⟩ := ih2 hr
          refine ⟨uniq_update u1 _, fun k hk => ?_⟩
          rw [get_update u2] at hk
          cases hg : get e' k with
          | some v =>
            obtain ⟨m, hm, hz⟩ := k2 k (by rw [hg]; rfl)
            exact ⟨m, by simp [names, hm], hz⟩
          | none =>
            rw [hg] at hk
            obtain ⟨m, _, hz⟩ := k1 k hk
            exact ⟨n, by simp [names], zone_sub hz⟩

/-! ## One field -/

/-- What comes back for one field when the class declares it as `d'` at the time of loading and declared it as `d` when it was saved: the stored number
of bits is used, and the dtype of `d'`; an array not written in packed form comes back as it is, whatever dtype `d'` asks for. -/
def loadedAs (packed : Bool) (d d' : Desc) (a : Arr) : Option Arr :=
  match bitpacked packed d with
  | some bits => (a.data.mapM fun v => cast d'.dtype (stored bits v)).map fun v => ⟨d'.dtype, a.shape, v⟩
  | none => match a.dtype with
    | .ext _ => none
    | _ => some a

/-- What comes back for one field: a field written in packed form has its declared dtype and the values modulo `2 ^ bits` (non-zero or not for
one bit), any other field comes back as it is. -/
def loaded (packed : Bool) (d : Desc) (a : Arr) : Option Arr :=
  match bitpacked packed d with
  | some bits => (a.data.mapM fun v => cast d.dtype (stored bits v)).map fun v => ⟨d.dtype, a.shape, v⟩
  | none => match a.dtype with
    | .ext _ => none
    | _ => some a

/-- What comes back for an instance. -/
def loadedInst (packed : Bool) : Cls → Inst Arr → Option (Inst Arr)
  | .nil, .nil => some .nil
  | .leaf n d cr, .leaf _ a r => (loaded packed d a).bind fun a' => (loadedInst packed cr r).map fun r' => .leaf n a' r'
  | .nested n cs cr, .nested _ x r => (loadedInst packed cs x).bind fun x' => (loadedInst packed cr r).map fun r' => .nested n x' r'
  | _, _ => none

/-- `x` is an instance of the class: the same fields in the same order, every array having as many entries as its shape says. -/
def IsInst : Cls → Inst Arr → Prop
  | .nil, .nil => True
  | .leaf n _ cr, .leaf m a r => n = m ∧ a.data.length = size a.shape ∧ IsInst cr r
  | .nested n cs cr, .nested m x r => n = m ∧ IsInst cs x ∧ IsInst cr r
  | _, _ => False

/-- A lookup of a key not ending in `y` is not disturbed by the member names. -/
theorem npz_of_last {D : Dict} {k : Key} (h : k.getLast? ≠ some 'y') : npz D k = get D k := by
  refine npz_eq fun q hq => absurd ?_ h
  have : ".npy".toList = ['.', 'n', 'p', 'y'] := by decide
  rw [hq, this, List.getLast?_append]
  rfl

theorem getLast_sfx (key : Key) : (key ++ dataSfx).getLast? ≠ some 'y' ∧ (key ++ shapeSfx).getLast? ≠ some 'y' ∧ (key ++ bitsSfx).getLast? ≠ some 'y' := by
  have h1 : dataSfx.getLast? = some 'a' := by decide
  have h2 : shapeSfx.getLast? = some 'e' := by decide
  have h3 : bitsSfx.getLast? = some 's' := by decide
  simp only [List.getLast?_append, h1, h2, h3, Option.some_or]
  decide

/-- The prefix of the fields of a nested instance ends in a dot, and what is before the dot is not a key. -/
def GoodPrefix (D : Dict) (p : Key) : Prop := p = [] ∨ ∃ q, p = q ++ ['.'] ∧ get D q = none

theorem npz_field {D : Dict} {p : Key} {n : String} (hn : NoDot n) (hp : GoodPrefix D p) : npz D (p ++ n.toList) = get D (p ++ n.toList) := by
  refine npz_eq fun q hq => ?_
  have e : ".npy".toList = '.' :: ['n', 'p', 'y'] := by decide
  rw [e] at hq
  rcases List.append_eq_append_iff.1 hq with ⟨u, h1, h2⟩ | ⟨u, h1, h2⟩
  · -- q = p ++ u, n = u ++ ".npy"
    exact absurd (by rw [h2]; simp) hn
  · -- p = q ++ u, ".npy" = u ++ n
    cases u with
    | nil =>
      simp only [List.nil_append] at h2
      exact absurd (by rw [← h2]; simp) hn
    | cons c u =>
      simp only [List.cons_append, List.cons.injEq] at h2
      obtain ⟨rfl, h3⟩ := h2
      rcases hp with rfl | ⟨q', hq', hg⟩
      · simp at h1
      · have hu : u = [] := by
          cases hu' : u.reverse with
          | nil => simpa using hu'
          | cons c' w =>
            exfalso
            have hu2 : u = w.reverse ++ [c'] := by rw [← List.reverse_reverse u, hu', List.reverse_cons]
            rw [hq', hu2, ← List.cons_append, ← List.append_assoc] at h1
            have := (List.append_inj' h1 rfl).2
            simp only [List.cons.injEq, and_true] at this
            subst this
            have : '.' ∈ ['n', 'p', 'y'] := by rw [h3, hu2]; simp
            exact absurd this (by decide)
        subst hu
        rw [hq'] at h1
        have := (List.append_inj' h1 rfl).1
        rw [← this]
        exact hg

theorem loadLeaf_as {packed : Bool} {d d' : Desc} {p : Key} {n : String} {a : Arr} {e D : Dict} (ha : a.data.length = size a.shape)
    (he : saveLeaf packed d (p ++ n.toList) a = some e) (hD : ∀ k, Zone p n k → get D k = get e k)
    (hnpz : npz D (p ++ n.toList) = get D (p ++ n.toList)) :
    loadLeaf d' D (p ++ n.toList) = loadedAs packed d d' a := by
  obtain ⟨⟨t1, d1⟩, ⟨t2, d2⟩, ⟨t3, d3⟩, _⟩ := sfx_dot
  obtain ⟨l1, l2, l3⟩ := getLast_sfx (p ++ n.toList)
  have z0 := hD (p ++ n.toList) ⟨[], by simp, Or.inl rfl⟩
  have z1 := hD (p ++ n.toList ++ dataSfx) ⟨_, rfl, Or.inr ⟨_, d1⟩⟩
  have z2 := hD (p ++ n.toList ++ shapeSfx) ⟨_, rfl, Or.inr ⟨_, d2⟩⟩
  have z3 := hD (p ++ n.toList ++ bitsSfx) ⟨_, rfl, Or.inr ⟨_, d3⟩⟩
  unfold loadLeaf loadedAs
  rw [npz_of_last l1, npz_of_last l2, npz_of_last l3, hnpz, z0, z1, z2, z3]
  cases hb : bitpacked packed d with
  | none =>
    rw [saveLeaf_plain hb] at he
    cases he
    have g1 : get [(p ++ n.toList, Ent.arr a)] (p ++ n.toList ++ dataSfx) = none := by
      have : (p ++ n.toList ++ dataSfx == p ++ n.toList) = false := by
        rw [beq_eq_false_iff_ne]
        intro hh
        rw [d1] at hh
        simpa using congrArg List.length hh
      simp only [get, List.lookup_cons, this, List.lookup_nil]
    have g0 : get [(p ++ n.toList, Ent.arr a)] (p ++ n.toList) = some (.arr a) := by simp [get]
    rw [g0, g1]
    cases hdt : a.dtype <;> simp [jnpArray, hdt]
  | some bits =>
    rw [saveLeaf_packed hb] at he
    by_cases hs : a.shape.any (fun n => decide (2 ^ 31 ≤ n)) = true
    · rw [if_pos hs] at he; cases he
    · rw [if_neg hs] at he
      cases hpk : pack a bits with
      | none => rw [hpk] at he; cases he
      | some bytes =>
        rw [hpk] at he
        cases he
        obtain ⟨g1, g2, g3⟩ := packedEntries_get (p ++ n.toList) a bits bytes
        rw [g1, g2, g3]
        have hbytes : bytes = toUint8 a.data bits ∧ 1 ≤ bits ∧ bits ≤ 32 := by
          unfold pack at hpk
          by_cases hr : 1 ≤ bits ∧ bits ≤ 32
          · rw [if_neg (by simpa using hr)] at hpk
            refine ⟨?_, hr⟩
            cases hdt : a.dtype with
            | bool =>
              rw [hdt] at hpk
              by_cases h1 : bits = 1
              · simp only [if_pos h1, Option.some.injEq] at hpk; exact hpk.symm
              · simp only [if_neg h1] at hpk; cases hpk
            | uint w => rw [hdt] at hpk; simp only [Option.some.injEq] at hpk; exact hpk.symm
            | int w => rw [hdt] at hpk; simp only [Option.some.injEq] at hpk; exact hpk.symm
            | float w => rw [hdt] at hpk; cases hpk
            | ext nm => rw [hdt] at hpk; cases hpk
          · rw [if_pos hr] at hpk; cases hpk
        have hto : ∀ l : List Nat, (l.map Int.ofNat).map Int.toNat = l := fun l => by
          rw [List.map_map, show (Int.toNat ∘ Int.ofNat) = id from rfl, List.map_id]
        simp only [hto]
        have hbt : (([(bits : Int)] : List Int).getD 0 0).toNat = bits := by simp
        rw [hbt, ← ha, hbytes.1, bitpack_roundtrip a.data hbytes.2.1 hbytes.2.2, List.mapM_map]
        rfl

theorem loadLeaf_spec {packed : Bool} {d : Desc} {p : Key} {n : String} {a : Arr} {e D : Dict} (hn : NoDot n) (ha : a.data.length = size a.shape)
    (he : saveLeaf packed d (p ++ n.toList) a = some e) (hD : ∀ k, Zone p n k → get D k = get e k) (hp : GoodPrefix D p) :
    loadLeaf d D (p ++ n.toList) = loaded packed d a := loadLeaf_as ha he hD (npz_field hn hp)

/-- Reading the keys of the fields of a class from a dictionary that agrees with the flattened instance there. -/
theorem unflatten_flatten {packed : Bool} {c : Cls} {p : Key} {x : Inst Arr} {F D : Dict} (hw : WfNames c) (hx : IsInst c x)
    (hF : flatten packed c p x = some F) (hD : ∀ k n, n ∈ names c → Zone p n k → get D k = get F k) (hp : GoodPrefix D p) :
    unflatten D c p = loadedInst packed c x := by
  induction c generalizing p x F with
  | nil =>
    cases x with
    | nil => rfl
    | leaf => cases hF
    | nested => cases hF
  | leaf n d cr ih =>
    cases x with
    | nil => cases hF
    | nested => cases hF
    | leaf n' a r =>
      simp only [flatten] at hF
      cases he : saveLeaf packed d (p ++ n.toList) a with
      | none => rw [he] at hF; cases hF
      | some e =>
        cases hr : flatten packed cr p r with
        | none => rw [he, hr] at hF; cases hF
        | some e' =>
          rw [he, hr] at hF
          simp only [Option.bind_some, Option.map_some, Option.some.injEq] at hF
          subst hF
          obtain ⟨u1, k1⟩ := saveLeaf_keys he
          obtain ⟨u2, k2⟩ := flatten_keys hr
          have hnd := noDot_names hw.2.2
          have hleaf := loadLeaf_spec (D := D) hw.1 hx.2.1 he (fun k hz => by
            rw [hD k n (by simp [names]) hz, get_update u2]
            cases hg : get e' k with
            | none => rfl
            | some v =>
              obtain ⟨m, hm, hz'⟩ := k2 k (by rw [hg]; rfl)
              have := zone_disjoint hw.1 (hnd m hm) hz hz'
              subst this
              exact absurd hm hw.2.1) hp
          have hrest := ih hw.2.2 hx.2.2 hr (fun k m hm hz => by
            rw [hD k m (by simp [names, hm]) hz, get_update u2]
            cases hg : get e' k with
            | some v => rfl
            | none =>
              cases hg' : get e k with
              | none => rfl
              | some v =>
                have := zone_disjoint hw.1 (hnd m hm) (k1 k (by rw [hg']; rfl)) hz
                subst this
                exact absurd hm hw.2.1) hp
          simp only [unflatten, loadedInst]
          rw [hleaf, hrest]
  | nested n cs cr ih1 ih2 =>
    cases x with
    | nil => cases hF
    | leaf => cases hF
    | nested n' s r =>
      simp only [flatten] at hF
      cases he : flatten packed cs (p ++ n.toList ++ ['.']) s with
      | none => rw [he] at hF; cases hF
      | some e =>
        cases hr : flatten packed cr p r with
        | none => rw [he, hr] at hF; cases hF
        | some e' =>
          rw [he, hr] at hF
          simp only [Option.bind_some, Option.map_some, Option.some.injEq] at hF
          subst hF
          obtain ⟨u1, k1⟩ := flatten_keys he
          obtain ⟨u2, k2⟩ := flatten_keys hr
          have hnd := noDot_names hw.2.2.2
          have hzone : ∀ k, Zone p n k → get D k = get e k := fun k hz => by
            rw [hD k n (by simp [names]) hz, get_update u2]
            cases hg : get e' k with
            | none => rfl
            | some v =>
              obtain ⟨m, hm, hz'⟩ := k2 k (by rw [hg]; rfl)
              have := zone_disjoint hw.1 (hnd m hm) hz hz'
              subst this
              exact absurd hm hw.2.1
          have hsub := ih1 hw.2.2.1 hx.2.1 he (fun k m _ hz => hzone k (zone_sub hz)) (Or.inr ⟨p ++ n.toList, rfl, by
            rw [hzone _ ⟨[], by simp, Or.inl rfl⟩]
            cases hg : get e (p ++ n.toList) with
            | none => rfl
            | some v =>
              obtain ⟨m, _, s', hz, _⟩ := k1 _ (by rw [hg]; rfl)
              exfalso
              have := congrArg List.length hz
              simp only [List.length_append, List.length_cons, List.length_nil] at this
              omega⟩)
          have hrest := ih2 hw.2.2.2 hx.2.2 hr (fun k m hm hz => by
            rw [hD k m (by simp [names, hm]) hz, get_update u2]
            cases hg : get e' k with
            | some v => rfl
            | none =>
              cases hg' : get e k with
              | none => rfl
              | some v =>
                obtain ⟨m', _, hz'⟩ := k1 k (by rw [hg']; rfl)
                have := zone_disjoint hw.1 (hnd m hm) (zone_sub hz') hz
                subst this
                exact absurd hm hw.2.1) hp
          simp only [unflatten, loadedInst]
          rw [hsub, hrest]

/-! ## Files -/

/-- Names a class cannot give to its own (not nested) fields. -/
def reserved : List String := ["file", "allow_pickle", "__xtructure_class_module__", "__xtructure_class_name__"]

theorem zone_reserved {n m : String} (hm : NoDot m) (hn : NoDot n) (h : Zone [] n m.toList) : n = m := by
  have : Zone [] m m.toList := ⟨[], by simp, Or.inl rfl⟩
  exact zone_disjoint hn hm h this

theorem get_filter {d : Dict} {k r : Key} (h : k ≠ r) : get (d.filter fun e => decide (e.1 ≠ r)) k = get d k := by
  unfold get
  induction d with
  | nil => rfl
  | cons e d ih =>
    obtain ⟨a, b⟩ := e
    by_cases ha : a = r
    · have hka : (k == a) = false := by rw [beq_eq_false_iff_ne, ha]; exact h
      rw [List.filter_cons_of_neg (by simpa using ha), List.lookup_cons, hka]
      exact ih
    · rw [List.filter_cons_of_pos (by simpa using ha), List.lookup_cons, List.lookup_cons, ih]

theorem lookup_head {fs : Fs} {path : Key} {f : Dict} (k : Key) : List.lookup k ((path, f) :: fs) = if k = path then some f else List.lookup k fs := by
  by_cases h : k = path
  · simp [h]
  · have : (k == path) = false := by simpa using h
    rw [if_neg h]
    simp only [List.lookup_cons, this]

/-- **C49, exact form.**  Saving succeeds iff every field can be written; loading the file then gives exactly `loadedInst`: for fields written in
packed form the values modulo `2 ^ bits` in the declared dtype, for all others the array itself. -/
theorem save_load_exact {fs fs' : Fs} {reg : String → String → Option Cls} {path : Key} {packed : Bool} {mod name : String} {c : Cls} {x : Inst Arr}
    (hw : WfNames c) (hx : IsInst c x) (hr : ∀ n ∈ names c, n ∉ reserved) (hreg : reg mod name = some c) (hpath : ".npz".toList <:+ path)
    (hs : save fs path packed mod name c x = some fs') :
    load fs' reg path = (loadedInst packed c x).map fun y => ⟨mod, name, y⟩ := by
  unfold save at hs
  cases hF : flatten packed c [] x with
  | none => rw [hF] at hs; cases hs
  | some F =>
    rw [hF] at hs
    simp only [Option.bind_some] at hs
    cases hz : savez (put (put F moduleKey (.str mod)) classKey (.str name)) with
    | none => rw [hz] at hs; cases hs
    | some D =>
      rw [hz] at hs
      simp only [Option.map_some, Option.some.injEq] at hs
      subst hs
      have hnp : npzPath path = path := by
        unfold npzPath
        rw [if_pos (by rwa [List.isSuffixOf_iff_suffix])]
      have hDdef : D = (put (put F moduleKey (.str mod)) classKey (.str name)).filter fun e => decide (e.1 ≠ "allow_pickle".toList) := by
        unfold savez at hz
        split at hz
        · cases hz
        · cases hz; rfl
      have gm : get D moduleKey = some (.str mod) := by
        rw [hDdef, get_filter (by decide), get_put, if_neg (by decide), get_put, if_pos rfl]
      have gc : get D classKey = some (.str name) := by
        rw [hDdef, get_filter (by decide), get_put, if_pos rfl]
      have hDz : ∀ k n, n ∈ names c → Zone [] n k → get D k = get F k := fun k n hn hzn => by
        have hnd := noDot_names hw n hn
        have hne : ∀ m : String, m ∈ reserved → NoDot m → k ≠ m.toList := fun m hm hd e => by
          subst e
          exact hr n hn (by rw [zone_reserved hd hnd hzn]; exact hm)
        have e1 : k ≠ classKey := hne "__xtructure_class_name__" (by decide) (by unfold NoDot; decide)
        have e2 : k ≠ moduleKey := hne "__xtructure_class_module__" (by decide) (by unfold NoDot; decide)
        rw [hDdef, get_filter (hne "allow_pickle" (by decide) (by unfold NoDot; decide)), get_put, if_neg e1, get_put, if_neg e2]
      unfold load
      rw [hnp, lookup_head, if_pos rfl]
      simp only [Option.bind_some]
      rw [npz_of_last (by decide), npz_of_last (by decide), gm, gc]
      simp only [hreg, Option.bind_some]
      rw [unflatten_flatten hw hx hF hDz (Or.inl rfl)]

/-- `v` is a value of the dtype. -/
def InRange : DType → Int → Prop
  | .bool, v => v = 0 ∨ v = 1
  | .uint w, v => 0 ≤ v ∧ v < 2 ^ w
  | .int w, v => 1 ≤ w ∧ -(2 ^ (w - 1)) ≤ v ∧ v < 2 ^ (w - 1)
  | _, _ => True

/-- The array fits its field: the declared dtype; if the field is written in packed form, an integer dtype (or booleans with one bit), dimensions below
`2 ^ 31` and values in `0 … 2 ^ bits - 1`; otherwise a dtype that numpy can restore. -/
def Fits (packed : Bool) (d : Desc) (a : Arr) : Prop :=
  a.dtype = d.dtype ∧ (∀ v ∈ a.data, InRange d.dtype v) ∧
  match bitpacked packed d with
  | some bits => 1 ≤ bits ∧ bits ≤ 32 ∧ (∀ n ∈ a.shape, n < 2 ^ 31) ∧ (∀ v ∈ a.data, 0 ≤ v ∧ v < 2 ^ bits) ∧
      ((∃ w, d.dtype = .uint w ∨ d.dtype = .int w) ∨ (d.dtype = .bool ∧ bits = 1))
  | none => ∀ nm, d.dtype ≠ .ext nm

/-- Every array of the instance fits its field. -/
def AllFit (packed : Bool) : Cls → Inst Arr → Prop
  | .nil, .nil => True
  | .leaf _ d cr, .leaf _ a r => Fits packed d a ∧ AllFit packed cr r
  | .nested _ cs cr, .nested _ x r => AllFit packed cs x ∧ AllFit packed cr r
  | _, _ => False

theorem cast_stored {dt : DType} {bits : Nat} {v : Int} (hi : InRange dt v) (h0 : 0 ≤ v) (h1 : v < 2 ^ bits)
    (hd : (∃ w, dt = .uint w ∨ dt = .int w) ∨ (dt = .bool ∧ bits = 1)) : cast dt (stored bits v) = some v := by
  rw [stored_of_range h0 h1]
  rcases hd with ⟨w, rfl | rfl⟩ | ⟨rfl, rfl⟩
  · obtain ⟨_, h3⟩ := hi
    have : v.toNat < 2 ^ w := by
      have : ((2 ^ w : Nat) : Int) = 2 ^ w := by simp
      omega
    simp only [cast, Nat.mod_eq_of_lt this, Option.some.injEq]
    omega
  · obtain ⟨hw, h3, h4⟩ := hi
    obtain ⟨u, rfl⟩ : ∃ u, w = u + 1 := ⟨w - 1, by omega⟩
    simp only [Nat.add_sub_cancel] at h3 h4
    simp only [cast, Nat.add_sub_cancel, Option.some.injEq]
    rw [Int.toNat_of_nonneg h0, Int.emod_eq_of_lt (by omega) (by rw [Int.pow_succ]; omega)]
    omega
  · simp only [InRange] at hi
    rcases hi with rfl | rfl <;> rfl

theorem loaded_of_fits {packed : Bool} {d : Desc} {a : Arr} (h : Fits packed d a) : loaded packed d a = some a := by
  obtain ⟨h1, h2, h3⟩ := h
  unfold loaded
  cases hb : bitpacked packed d with
  | none =>
    rw [hb] at h3
    simp only at h3 ⊢
    rw [h1]
    cases hd : d.dtype <;> simp
    exact absurd hd (h3 _)
  | some bits =>
    rw [hb] at h3
    simp only at h3 ⊢
    obtain ⟨_, _, _, h4, h5⟩ := h3
    have : a.data.mapM (fun v => cast d.dtype (stored bits v)) = some a.data := by
      have hl : ∀ l : List Int, (∀ v ∈ l, v ∈ a.data) → l.mapM (fun v => cast d.dtype (stored bits v)) = some l := by
        intro l
        induction l with
        | nil => intro _; rfl
        | cons v l ih =>
          intro hm
          have hv := hm v (by simp)
          rw [List.mapM_cons, cast_stored (h2 v hv) (h4 v hv).1 (h4 v hv).2 h5, ih fun w hw => hm w (by simp [hw])]
          rfl
      exact hl _ fun v hv => hv
    rw [this, ← h1]
    rfl

theorem loadedInst_of_fits {packed : Bool} {c : Cls} {x : Inst Arr} (hx : IsInst c x) (h : AllFit packed c x) : loadedInst packed c x = some x := by
  induction c generalizing x with
  | nil => cases x with
    | nil => rfl
    | leaf => exact hx.elim
    | nested => exact hx.elim
  | leaf n d cr ih => cases x with
    | nil => exact hx.elim
    | nested => exact hx.elim
    | leaf m a r => simp only [loadedInst, loaded_of_fits h.1, ih hx.2.2 h.2, Option.bind_some, Option.map_some, hx.1]
  | nested n cs cr ih1 ih2 => cases x with
    | nil => exact hx.elim
    | leaf => exact hx.elim
    | nested m s r => simp only [loadedInst, ih1 hx.2.1 h.1, ih2 hx.2.2 h.2, Option.bind_some, Option.map_some, hx.1]

theorem flatten_of_fits {packed : Bool} {c : Cls} {x : Inst Arr} (p : Key) (hx : IsInst c x) (h : AllFit packed c x) : ∃ F, flatten packed c p x = some F := by
  induction c generalizing x p with
  | nil => cases x with
    | nil => exact ⟨_, rfl⟩
    | leaf => exact hx.elim
    | nested => exact hx.elim
  | leaf n d cr ih => cases x with
    | nil => exact hx.elim
    | nested => exact hx.elim
    | leaf m a r =>
      obtain ⟨F', hF'⟩ := ih p hx.2.2 h.2
      obtain ⟨h1, _, h3⟩ := h.1
      have : ∃ e, saveLeaf packed d (p ++ n.toList) a = some e := by
        cases hb : bitpacked packed d with
        | none => exact ⟨_, saveLeaf_plain hb _ _⟩
        | some bits =>
          rw [hb] at h3
          simp only at h3
          obtain ⟨b1, b2, b3, _, b5⟩ := h3
          rw [saveLeaf_packed hb, if_neg (by
            rw [List.any_eq_true]
            rintro ⟨k, hk, hh⟩
            have := of_decide_eq_true hh
            have := b3 k hk
            omega)]
          unfold pack
          rw [if_neg (by simpa using ⟨b1, b2⟩), h1]
          rcases b5 with ⟨w, e | e⟩ | ⟨e, e'⟩
          · rw [e]; exact ⟨_, rfl⟩
          · rw [e]; exact ⟨_, rfl⟩
          · rw [e]; simp only [if_pos e']; exact ⟨_, rfl⟩
      obtain ⟨e, he⟩ := this
      exact ⟨update e F', by simp only [flatten, he, hF', Option.bind_some, Option.map_some]⟩
  | nested n cs cr ih1 ih2 => cases x with
    | nil => exact hx.elim
    | leaf => exact hx.elim
    | nested m s r =>
      obtain ⟨e, he⟩ := ih1 (p ++ n.toList ++ ['.']) hx.2.1 h.1
      obtain ⟨F', hF'⟩ := ih2 p hx.2.2 h.2
      exact ⟨update e F', by simp only [flatten, he, hF', Option.bind_some, Option.map_some]⟩

/-- **C49.**  For every class (nested to any depth; distinct field names that are identifiers, none of the class's own fields with a reserved name), every
instance whose arrays fit their fields, packed or not, every path ending in `.npz`: `save` succeeds, and `load` of the path gives back the class and
the instance. -/
theorem save_load_partial {fs : Fs} {reg : String → String → Option Cls} {path : Key} {packed : Bool} {mod name : String} {c : Cls} {x : Inst Arr}
    (hw : WfNames c) (hx : IsInst c x) (hr : ∀ n ∈ names c, n ∉ reserved) (hreg : reg mod name = some c) (hpath : ".npz".toList <:+ path)
    (hfit : AllFit packed c x) :
    ∃ fs', save fs path packed mod name c x = some fs' ∧ load fs' reg path = some ⟨mod, name, x⟩ ∧ loadAs fs' reg mod name path = some x := by
  obtain ⟨F, hF⟩ := flatten_of_fits [] hx hfit
  have hfile : get (put (put F moduleKey (.str mod)) classKey (.str name)) "file".toList = none := by
    rw [get_put, if_neg (by decide), get_put, if_neg (by decide)]
    cases hg : get F "file".toList with
    | none => rfl
    | some v =>
      obtain ⟨n, hn, hz⟩ := (flatten_keys hF).2 _ (by rw [hg]; rfl)
      exact absurd (by rw [zone_reserved (m := "file") (by unfold NoDot; decide) (noDot_names hw n hn) hz]; decide) (hr n hn)
  have hs : ∃ fs', save fs path packed mod name c x = some fs' := by
    unfold save
    rw [hF]
    simp only [Option.bind_some]
    unfold savez
    rw [hfile]
    exact ⟨_, rfl⟩
  obtain ⟨fs', hs⟩ := hs
  have hl := save_load_exact hw hx hr hreg hpath hs
  rw [loadedInst_of_fits hx hfit] at hl
  refine ⟨fs', hs, hl, ?_⟩
  unfold loadAs
  rw [hl]
  simp

/-- Saving does not change what is loaded from any other file. -/
theorem save_other {fs fs' : Fs} {reg : String → String → Option Cls} {path q : Key} {packed : Bool} {mod name : String} {c : Cls} {x : Inst Arr}
    (hs : save fs path packed mod name c x = some fs') (hq : q ≠ npzPath path) : load fs' reg q = load fs reg q := by
  unfold save at hs
  cases hF : flatten packed c [] x with
  | none => rw [hF] at hs; cases hs
  | some F =>
    rw [hF] at hs
    simp only [Option.bind_some] at hs
    cases hz : savez (put (put F moduleKey (.str mod)) classKey (.str name)) with
    | none => rw [hz] at hs; cases hs
    | some D =>
      rw [hz] at hs
      simp only [Option.map_some, Option.some.injEq] at hs
      subst hs
      unfold load
      rw [lookup_head, if_neg hq]

/-- **Without the suffix `.npz`** the file is written elsewhere: loading the same path gives what it gave before `save` (an exception, or an old
instance). -/
theorem save_without_suffix {fs fs' : Fs} {reg : String → String → Option Cls} {path : Key} {packed : Bool} {mod name : String} {c : Cls} {x : Inst Arr}
    (hs : save fs path packed mod name c x = some fs') (hpath : ¬ ".npz".toList <:+ path) : load fs' reg path = load fs reg path := by
  refine save_other hs fun h => ?_
  unfold npzPath at h
  rw [if_neg (by rwa [List.isSuffixOf_iff_suffix])] at h
  have := congrArg List.length h
  have e : ".npz".toList = ['.', 'n', 'p', 'z'] := by decide
  rw [e, List.length_append] at this
  simp at this

/-- `SomeClass.load` of a file written from an instance of another class raises. -/
theorem load_other_class {fs fs' : Fs} {reg : String → String → Option Cls} {path : Key} {packed : Bool} {mod name mod' name' : String} {c : Cls} {x : Inst Arr}
    (hw : WfNames c) (hx : IsInst c x) (hr : ∀ n ∈ names c, n ∉ reserved) (hreg : reg mod name = some c) (hpath : ".npz".toList <:+ path)
    (hs : save fs path packed mod name c x = some fs') (hne : ¬ (mod = mod' ∧ name = name')) : loadAs fs' reg mod' name' path = none := by
  unfold loadAs
  rw [save_load_exact hw hx hr hreg hpath hs]
  cases loadedInst packed c x with
  | none => rfl
  | some y => simp only [Option.map_some, Option.bind_some, if_neg hne]

/-! ## Cases outside the theorem -/

/-- Values that need more than `bits` bits do not come back: the default value 255 of a `uint8` field with `bits=3` is loaded as 7. -/
theorem truncated_false :
    (save [] "a.npz".toList true "m" "C" (.leaf "f" ⟨.uint 8, some 3, false⟩ .nil) (.leaf "f" ⟨.uint 8, [2], [255, 5]⟩ .nil)).bind
      (fun fs => load fs (fun _ _ => some (.leaf "f" ⟨.uint 8, some 3, false⟩ .nil)) "a.npz".toList) =
      some ⟨"m", "C", .leaf "f" ⟨.uint 8, [2], [7, 5]⟩ .nil⟩ := by decide +kernel

/-- A field called `file` makes `save` raise; a field called `__xtructure_class_name__` is overwritten by the class name, and `load` raises. -/
theorem reserved_names_false :
    save [] "a.npz".toList true "m" "C" (.leaf "file" ⟨.uint 8, none, false⟩ .nil) (.leaf "file" ⟨.uint 8, [], [1]⟩ .nil) = none ∧
    (save [] "a.npz".toList true "m" "C" (.leaf "__xtructure_class_name__" ⟨.uint 8, none, false⟩ .nil) (.leaf "__xtructure_class_name__" ⟨.uint 8, [], [1]⟩ .nil)).bind
      (fun fs => load fs (fun _ _ => some (.leaf "__xtructure_class_name__" ⟨.uint 8, none, false⟩ .nil)) "a.npz".toList) = none := by
  constructor <;> decide +kernel

/-- A `bfloat16` field is written but cannot be loaded; a boolean field with more than one bit cannot be saved. -/
theorem dtype_false :
    (save [] "a.npz".toList true "m" "C" (.leaf "f" ⟨.ext "bfloat16", none, false⟩ .nil) (.leaf "f" ⟨.ext "bfloat16", [], [1]⟩ .nil)).isSome = true ∧
    (save [] "a.npz".toList true "m" "C" (.leaf "f" ⟨.ext "bfloat16", none, false⟩ .nil) (.leaf "f" ⟨.ext "bfloat16", [], [1]⟩ .nil)).bind
      (fun fs => load fs (fun _ _ => some (.leaf "f" ⟨.ext "bfloat16", none, false⟩ .nil)) "a.npz".toList) = none ∧
    save [] "a.npz".toList true "m" "C" (.leaf "f" ⟨.bool, some 2, false⟩ .nil) (.leaf "f" ⟨.bool, [1], [1]⟩ .nil) = none := by
  refine ⟨?_, ?_, ?_⟩ <;> decide +kernel

/-- Non-trivial case: a nested class, a packed field of three bits, a field called `npy` inside a nested field. -/
def demoCls : Cls := .leaf "f" ⟨.uint 8, some 3, false⟩ (.nested "a" (.leaf "npy" ⟨.float 32, none, false⟩ .nil) (.leaf "b" ⟨.bool, some 1, false⟩ .nil))

def demoInst : Inst Arr := .leaf "f" ⟨.uint 8, [3], [1, 7, 5]⟩ (.nested "a" (.leaf "npy" ⟨.float 32, [2], [1065353216, 0]⟩ .nil) (.leaf "b" ⟨.bool, [], [1]⟩ .nil))

example : WfNames demoCls ∧ IsInst demoCls demoInst ∧ (∀ n ∈ names demoCls, n ∉ reserved) ∧ AllFit true demoCls demoInst ∧ ".npz".toList <:+ "d/x.npz".toList := by
  refine ⟨?_, ?_, by decide, ?_, ⟨"d/x".toList, by decide⟩⟩
  · simp only [WfNames, demoCls, NoDot, names]; decide
  · simp only [IsInst, demoCls, demoInst]; decide
  · simp only [AllFit, demoCls, demoInst, Fits, bitpacked, InRange]
    refine ⟨⟨trivial, by decide, by simp⟩, ⟨⟨trivial, by simp, by simp⟩, trivial⟩, ⟨trivial, by decide, by simp⟩, trivial⟩

example : (save [] "x.npz".toList true "m" "C" demoCls demoInst).bind (fun fs => load fs (fun _ _ => some demoCls) "x.npz".toList) = some ⟨"m", "C", demoInst⟩ := by
  decide +kernel

end Io
