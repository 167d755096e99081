import Verif.UniqueExact
import Verif.BgpqProps
import Verif.SoAWhere

/-!
# C111: filtering a batch with `unique_mask`

Two uses of the mask: keys of entries that are not marked become `+inf` before `BGPQ.insert`, and `xnp.where(mask, data, default)` (docs/xnp.md:451-456).
-/

namespace Pipeline

open Unique Bgpq BgpqSpec

/-! ## Specification -/

/-- `news` are the distinct valid items of a batch, each once, with the least of its keys. -/
structure Best {K : Type u} [KeyTop K] {V : Type v} (vals : List V) (keys : List K) (filled : Option (List Bool)) (news : List (K × V)) : Prop where
  /-- each comes from a valid entry -/
  given : ∀ p ∈ news, ∃ i : Nat, keys[i]? = some p.1 ∧ vals[i]? = some p.2 ∧ Valid filled (some keys) i
  /-- no item twice -/
  once : (news.map (·.2)).Nodup
  /-- every item with a valid entry is there, under a key that is not greater -/
  all : ∀ (i : Nat) (k : K) (v : V), keys[i]? = some k → vals[i]? = some v → Valid filled (some keys) i → ∃ p ∈ news, p.2 = v ∧ KeyCmp.le p.1 k = true

/-! ## Model -/

/-- `jnp.where(mask, keys, jnp.inf)` with the values of the batch, in user code. -/
def maskKeys {K : Type u} [KeyPad K] {V : Type v} (mask : List Bool) (keys : List K) (vals : List V) : List (K × V) :=
  (mask.zip (keys.zip vals)).map fun p => (if p.1 then p.2.1 else KeyPad.inf, p.2.2)

/-! ## Priority queue -/

section Queue

variable {K : Type u} [KeyInf K] {V : Type v}

theorem maskKeys_length {mask : List Bool} {keys : List K} {vals : List V} (hm : mask.length = vals.length) (hk : keys.length = vals.length) :
    (maskKeys mask keys vals).length = vals.length := by
  unfold maskKeys; simp [hm, hk]

theorem maskKeys_get {mask : List Bool} {keys : List K} {vals : List V} {i : Nat} {p : K × V} (h : (maskKeys mask keys vals)[i]? = some p) :
    ∃ b k, mask[i]? = some b ∧ keys[i]? = some k ∧ vals[i]? = some p.2 ∧ p.1 = if b then k else KeyPad.inf := by
  unfold maskKeys at h
  rw [List.getElem?_map] at h
  cases hz : (mask.zip (keys.zip vals))[i]? with
  | none => rw [hz] at h; cases h
  | some q =>
    rw [hz] at h
    cases h
    obtain ⟨b, k, v⟩ := q
    rw [List.getElem?_zip_eq_some] at hz
    obtain ⟨h1, h2⟩ := hz
    rw [List.getElem?_zip_eq_some] at h2
    exact ⟨b, k, h1, h2.1, h2.2, rfl⟩

theorem maskKeys_at {mask : List Bool} {keys : List K} {vals : List V} {i : Nat} {b : Bool} {k : K} {v : V} (h1 : mask[i]? = some b) (h2 : keys[i]? = some k)
    (h3 : vals[i]? = some v) : (maskKeys mask keys vals)[i]? = some (if b then k else KeyPad.inf, v) := by
  unfold maskKeys
  rw [List.getElem?_map, show (mask.zip (keys.zip vals))[i]? = some (b, k, v) from List.getElem?_zip_eq_some.2 ⟨h1, List.getElem?_zip_eq_some.2 ⟨h2, h3⟩⟩]
  rfl

theorem isFin_iff (k : K) : KeyPad.isFin k = true ↔ KeyCmp.le KeyPad.inf k = false := by
  rw [KeyInf.isFin_eq]; cases KeyCmp.le (KeyPad.inf : K) k <;> simp

theorem inf_notFin : KeyPad.isFin (KeyPad.inf : K) = false := by
  rw [KeyInf.isFin_eq, KeyLE.refl]; rfl

/-- The finite pairs of the masked batch are the best of each distinct item. -/
theorem masked_best {vals : List V} {keys : List K} {filled : Option (List Bool)} {mask : List Bool} (hm : mask.length = vals.length) (hk : keys.length = vals.length)
    {enc : V → List Nat} (henc : ∀ a b, enc a = enc b → a = b)
    (hrep : ∀ i, i < vals.length → (mask.getD i false = true ↔ IsRep vals.length (vals.map enc) filled (some keys) i)) :
    Best vals keys filled (items (maskKeys mask keys vals)) := by
  have hrow : ∀ (i : Nat) (v : V), vals[i]? = some v → (vals.map enc).getD i [] = enc v := fun i v h => by
    rw [List.getD_eq_getElem?_getD, List.getElem?_map, h]; rfl
  have hlt : ∀ (i : Nat) (v : V), vals[i]? = some v → i < vals.length := fun i v h => (List.getElem?_eq_some_iff.1 h).1
  have hmem : ∀ p ∈ items (maskKeys mask keys vals), ∃ i : Nat, (maskKeys mask keys vals)[i]? = some p ∧ mask[i]? = some true ∧ keys[i]? = some p.1 ∧ vals[i]? = some p.2 := by
    intro p hp
    obtain ⟨hp, hf⟩ := List.mem_filter.1 hp
    obtain ⟨i, hi⟩ := List.mem_iff_getElem?.1 hp
    obtain ⟨b, k, h1, h2, h3, h4⟩ := maskKeys_get hi
    cases b with
    | false =>
      rw [h4] at hf
      simp only [Bool.false_eq_true, if_false] at hf
      rw [inf_notFin] at hf
      cases hf
    | true =>
      simp only [if_true] at h4
      exact ⟨i, hi, h1, by rw [h2, h4], h3⟩
  have hmask : ∀ i : Nat, mask[i]? = some true → mask.getD i false = true := fun i h => by rw [List.getD_eq_getElem?_getD, h]; rfl
  refine ⟨?_, ?_, ?_⟩
  · intro p hp
    obtain ⟨i, _, h1, h2, h3⟩ := hmem p hp
    exact ⟨i, h2, h3, ((hrep i (hlt i _ h3)).1 (hmask i h1)).1⟩
  · unfold items
    rw [List.Nodup, List.pairwise_map, List.pairwise_filter]
    rw [List.pairwise_iff_getElem]
    intro i j hi hj hij hfi hfj he
    have gi : (maskKeys mask keys vals)[i]? = some (maskKeys mask keys vals)[i] := List.getElem?_eq_getElem hi
    have gj : (maskKeys mask keys vals)[j]? = some (maskKeys mask keys vals)[j] := List.getElem?_eq_getElem hj
    obtain ⟨b, k, h1, h2, h3, h4⟩ := maskKeys_get gi
    obtain ⟨b', k', h1', h2', h3', h4'⟩ := maskKeys_get gj
    have hb : b = true := by
      cases b with
      | true => rfl
      | false => rw [h4] at hfi; simp only [Bool.false_eq_true, if_false] at hfi; rw [inf_notFin] at hfi; cases hfi
    have hb' : b' = true := by
      cases b' with
      | true => rfl
      | false => rw [h4'] at hfj; simp only [Bool.false_eq_true, if_false] at hfj; rw [inf_notFin] at hfj; cases hfj
    subst hb; subst hb'
    have r1 := (hrep i (hlt i _ h3)).1 (hmask i h1)
    have r2 := (hrep j (hlt j _ h3')).1 (hmask j h1')
    have e : (vals.map enc).getD j [] = (vals.map enc).getD i [] := by rw [hrow i _ h3, hrow j _ h3', he]
    have p1 := r1.2 j (hlt j _ h3') r2.1 e
    have p2 := r2.2 i (hlt i _ h3) r1.1 e.symm
    have := p2.2 p1.1
    omega
  · intro i k v h1 h2 hv
    obtain ⟨a, ha, hra, hrow', _⟩ := exists_rep (rows := vals.map enc) (hlt i v h2) hv
    obtain ⟨va, hva⟩ : ∃ va, vals[a]? = some va := ⟨_, List.getElem?_eq_getElem ha⟩
    obtain ⟨ka, hka⟩ : ∃ ka, keys[a]? = some ka := ⟨_, List.getElem?_eq_getElem (by omega)⟩
    have hma : mask[a]? = some true := by
      have := (hrep a ha).2 hra
      rw [List.getD_eq_getElem?_getD] at this
      cases hx : mask[a]? with
      | none => rw [hx] at this; cases this
      | some b => rw [hx] at this; exact congrArg some this
    have e1 : va = v := henc _ _ (by rw [← hrow a va hva, ← hrow i v h2]; exact hrow')
    have hkd : ∀ (j : Nat) (x : K), keys[j]? = some x → keys.getD j KeyPad.inf = x := fun j x h => by rw [List.getD_eq_getElem?_getD, h]; rfl
    refine ⟨(ka, va), ?_, e1, ?_⟩
    · refine List.mem_filter.2 ⟨List.mem_iff_getElem?.2 ⟨a, maskKeys_at hma hka hva⟩, ?_⟩
      have := hra.1.2 keys rfl
      rw [hkd a ka hka] at this
      exact (isFin_iff ka).2 this
    · have := (hra.2 i (hlt i v h2) hv hrow'.symm).1
      rwa [hkd a ka hka, hkd i k h1] at this

/-- **`unique_mask` in front of a priority queue.**  Items of at most 4 words of identity, any keys, any filled mask: masking the keys with `unique_mask(vals, key=keys,
filled=filled)` and inserting the batch (padded to the batch size) adds to the queue exactly one pair per distinct valid item, with the least of its keys; and only these
count for the room that is needed. -/
theorem unique_insert {x64 : Bool} {total batch : Nat} (ht : 0 < total) (hb : 0 < batch) {dflt pad : V}
    (hcap : (Bgpq.build total batch dflt : Heap K V).maxSize + batch ≤ 2 ^ 32) {h : Heap K V} (hr : Reachable total batch dflt h)
    {enc : V → List Nat} {k : Nat} (hk0 : 0 < k) (hk4 : k ≤ (if x64 then 2 else 4)) (hlen : ∀ v, (enc v).length = k) (henc : ∀ a b, enc a = enc b → a = b)
    {vals : List V} {keys : List K} {filled : Option (List Bool)} (hk : keys.length = vals.length) (hn : vals.length ≤ batch) (size fill : Option Nat) :
    ∃ r block, uniqueMask x64 vals.length k (vals.map enc) (some keys) filled size fill = some r ∧
      makeBatched pad batch (maskKeys r.mask keys vals) = some block ∧
      ∃ news, Best vals keys filled news ∧
        ((contents h).length + news.length < h.maxSize + batch → (contents (Bgpq.insert h block)).Perm (contents h ++ news)) := by
  have hrows : ∀ i, i < vals.length → ((vals.map enc).getD i []).length = k := fun i hi => by
    rw [List.getD_eq_getElem?_getD, List.getElem?_map, List.getElem?_eq_getElem hi]; exact hlen _
  obtain ⟨r, h1, h2, h3⟩ := unique_mask_iff (x64 := x64) (filled := filled) (key := some keys) size fill hk0 hk4 hrows (fun ks e => by cases e; exact hk)
  have hrep : ∀ i, i < vals.length → (r.mask.getD i false = true ↔ IsRep vals.length (vals.map enc) filled (some keys) i) := fun i hi => by
    rw [h3 i hi]
    exact ⟨fun h => h.1, fun h => ⟨h, fun hh => (by cases hh.1)⟩⟩
  have hml := maskKeys_length h2 hk
  refine ⟨r, _, h1, by unfold makeBatched; rw [if_pos (by rw [hml]; exact hn)], items (maskKeys r.mask keys vals), masked_best h2 hk henc hrep, fun hroom => ?_⟩
  have hit : items (maskKeys r.mask keys vals ++ List.replicate (batch - (maskKeys r.mask keys vals).length) (KeyPad.inf, pad)) = items (maskKeys r.mask keys vals) := by
    have hnil : (List.replicate (batch - (maskKeys r.mask keys vals).length) ((KeyPad.inf : K), pad)).filter (fun p => KeyPad.isFin p.1) = [] := by
      rw [List.filter_eq_nil_iff]
      intro p hp
      rw [(List.mem_replicate.1 hp).2]
      simp [inf_notFin]
    unfold items
    rw [List.filter_append, hnil, List.append_nil]
  have := (bgpq_conserves ht hb hcap hr).1 (maskKeys r.mask keys vals ++ List.replicate (batch - (maskKeys r.mask keys vals).length) (KeyPad.inf, pad))
    (by rw [List.length_append, List.length_replicate, hml]; omega) (by rw [hit]; exact hroom)
  rwa [hit] at this

/-- A batch with the item 7 under the keys 5 and 3 and the item 8 under the key 4, with hypotheses checked: the queue gets `(3, 7)` and `(4, 8)`. -/
example : ∃ h : Heap (Option Nat) Nat, Reachable 6 4 0 h ∧ h.maxSize + 4 ≤ 2 ^ 32 ∧ contents h = [(some 1, 9)] ∧
    ((uniqueMask false 3 1 [[7], [8], [7]] (some [some 5, some 4, some 3]) none none none).bind fun r =>
      (makeBatched 0 4 (maskKeys r.mask [some 5, some 4, some 3] [7, 8, 7])).map fun block => contents (Bgpq.insert h block)) =
      some [(some 1, 9), (some 3, 7), (some 4, 8)] :=
  ⟨Bgpq.insert (Bgpq.build 6 4 0) [(some 1, 9), (none, 0), (none, 0), (none, 0)], Reachable.insert Reachable.build rfl, by decide +kernel, by decide +kernel, by decide +kernel⟩

end Queue

/-! ## `xnp.where(mask, data, default)` -/

section Where

open SoA NArr Agg

variable {α : Type} [Inhabited α]

/-- `where` with a single instance `y` for the records that are not selected. -/
theorem where_one {b : List Nat} {c : Cls α} {x y : Tree α} {cond : NArr Bool} {sel : List Nat → Bool} {G : List Nat → Prop}
    (hx : Conf b c x) (hG : ConfP (fun r (_ : NArr α) => G r) [] c x) (hy : Conf [] c y)
    (hcond : ∀ r, G r → ∃ cb, broadcastTo cond (b ++ r) = some cb ∧ ∀ j i, InB b j → InB r i → cb.get (j ++ i) = sel j) :
    ∃ z, whereInst cond x y = some z ∧ Conf b c z ∧ ∀ j, InB b j → item j z = if sel j then item j x else y := by
  have hleaf : ∀ r (a w : NArr α), (a.Wf ∧ a.shape = b ++ r) → G r → (w.Wf ∧ w.shape = [] ++ r) →
      ∃ z, whereLeaf cond a w = some z ∧ (z.Wf ∧ z.shape = b ++ r) ∧ ∀ j, InB b j → sub j z = if sel j then sub j a else w := by
    intro r a w ha hg hw
    have hws : w.shape = r := hw.2
    obtain ⟨cb, h1, h2⟩ := hcond r hg
    have hb : broadcastTo w (b ++ r) = some (ofFn (b ++ r) fun i => w.get (bcastSrc w.shape i)) :=
      broadcastTo_eq (by rw [hws]; exact (Bcast.nil b).append r)
    unfold whereLeaf whereSame
    rw [ha.2, h1, hb]
    simp only [Option.bind_some, Option.map_some]
    refine ⟨_, rfl, ⟨ofFn_wf _ _, rfl⟩, fun j hj => ?_⟩
    rw [sub_ofFn _ hj]
    by_cases hs : sel j = true
    · rw [if_pos hs, sub_eq ha.2 hj]
      exact ofFn_congr fun i hi => by rw [h2 j i hj hi, if_pos hs]
    · rw [if_neg hs]
      have hwe : w = ofFn r w.get := by
        have := ofFn_get hw.1
        rw [hws] at this
        exact this.symm
      refine Eq.trans ?_ hwe.symm
      refine ofFn_congr fun i hi => ?_
      rw [h2 j i hj hi, if_neg hs, get_ofFn _ (hj.append hi), hws]
      have e : bcastSrc r (j ++ i) = i := by
        have := bcastSrc_self hi
        unfold bcastSrc at this ⊢
        rw [List.length_append, hi.length, show j.length + r.length - r.length = j.length by omega, List.drop_append_of_le_length (Nat.le_refl _), List.drop_length, List.nil_append]
        rwa [hi.length, Nat.sub_self, List.drop_zero] at this
      rw [e]
  obtain ⟨t, ht, htc⟩ := confP_zip (confP_and hx hG) hy
  obtain ⟨z, hz, hzc⟩ := confP_mapM (f := fun p : NArr α × NArr α => whereLeaf cond p.1 p.2) (Q := fun r (a : NArr α) => a.Wf ∧ a.shape = b ++ r) htc
    fun r p hp => by
      obtain ⟨z, h1, h2, _⟩ := hleaf r p.1 p.2 hp.1.1 hp.1.2 hp.2
      exact ⟨z, h1, h2⟩
  refine ⟨z, by unfold whereInst; rw [ht]; exact hz, hzc, fun j hj => ?_⟩
  obtain ⟨p1, p2⟩ := zip_proj ht
  by_cases hs : sel j = true
  · rw [if_pos hs, ← p1]
    unfold item
    rw [treeMap_comp]
    refine treeMapM_map hz fun p hp w hw => ?_
    obtain ⟨r, hr⟩ := confP_leaves htc p hp
    obtain ⟨z', h1, _, h3⟩ := hleaf r p.1 p.2 hr.1.1 hr.1.2 hr.2
    rw [h1] at hw
    cases hw
    rw [h3 j hj, if_pos hs]
  · rw [if_neg hs, ← p2]
    unfold item
    refine treeMapM_map hz fun p hp w hw => ?_
    obtain ⟨r, hr⟩ := confP_leaves htc p hp
    obtain ⟨z', h1, _, h3⟩ := hleaf r p.1 p.2 hr.1.1 hr.1.2 hr.2
    rw [h1] at hw
    cases hw
    rw [h3 j hj, if_neg hs]

/-- **The documented filter** `xnp.where(xnp.unique_mask(data, key=costs), data, Class.default())` (docs/xnp.md:451-456), for a class of scalar fields of at most 4 words
of identity: the representative of every distinct item stays, every other entry becomes the default. -/
theorem documented_filter_partial {K : Type} [KeyTop K] {x64 : Bool} {n : Nat} {c : Cls α} {x y : Tree α} {keys : Option (List K)} {enc : Tree α → List Nat} {k : Nat}
    (hx : Conf [n] c x) (hs : IntrinsicRank 0 c x) (hy : Conf [] c y) (hk0 : 0 < k) (hk4 : k ≤ (if x64 then 2 else 4)) (hlen : ∀ v, (enc v).length = k)
    (hkey : ∀ ks, keys = some ks → ks.length = n) (size fill : Option Nat) :
    let rows := (List.range n).map fun j => enc (item [j] x)
    ∃ r z, uniqueMask x64 n k rows keys none size fill = some r ∧ whereInst ⟨[n], r.mask⟩ x y = some z ∧ Conf [n] c z ∧
      ∀ j, j < n → (IsRep n rows none keys j → item [j] z = item [j] x) ∧ (¬ IsRep n rows none keys j → item [j] z = y) := by
  intro rows
  have hrows : ∀ i, i < n → (rows.getD i []).length = k := fun i hi => by
    show (((List.range n).map fun j => enc (item [j] x)).getD i []).length = k
    rw [List.getD_eq_getElem?_getD, List.getElem?_map, List.getElem?_range hi]; exact hlen _
  obtain ⟨r, h1, h2, h3⟩ := unique_mask_spec_partial (x64 := x64) (filled := none) (key := keys) size fill hk0 hrows hkey (noCollision_small hrows hk4) (.inr (.inl rfl))
  have hwf : (⟨[n], r.mask⟩ : NArr Bool).Wf := by unfold Wf; simp [h2, NArr.size]
  obtain ⟨z, h4, h5, h6⟩ := where_one (cond := ⟨[n], r.mask⟩) (G := fun r => r.length = 0) (sel := fun j => (⟨[n], r.mask⟩ : NArr Bool).get j) hx hs hy fun r' hr => by
    have : r' = [] := List.length_eq_zero_iff.1 hr
    subst this
    refine ⟨_, by rw [List.append_nil]; exact broadcastTo_self hwf, fun j i hj hi => ?_⟩
    cases i with
    | nil => rw [List.append_nil]
    | cons => exact hi.elim
  refine ⟨r, z, h1, h4, h5, fun j hj => ?_⟩
  have hget : (⟨[n], r.mask⟩ : NArr Bool).get [j] = r.mask.getD j false := by
    unfold NArr.get
    simp [ravel, NArr.size]
  have := h6 [j] ⟨hj, trivial⟩
  rw [hget] at this
  refine ⟨fun h => ?_, fun h => ?_⟩
  · rw [this, if_pos ((h3 j hj).2 h)]
  · rw [this, if_neg fun hm => h ((h3 j hj).1 hm)]

/-- Class with one scalar field, with hypotheses checked; records 7, 8, 7 with the costs 5, 4, 3. -/
example : Conf [3] (.leaf "a" [] (fun _ => ⟨[], [0]⟩) .nil) (.leaf "a" ⟨[3], [7, 8, 7]⟩ .nil : Tree Nat) ∧
    IntrinsicRank 0 (.leaf "a" [] (fun _ => ⟨[], [0]⟩) .nil) (.leaf "a" ⟨[3], [7, 8, 7]⟩ .nil : Tree Nat) ∧
    ((uniqueMask false 3 1 [[7], [8], [7]] (some [some 5, some 4, some 3]) none none none).bind fun r =>
      whereInst ⟨[3], r.mask⟩ (.leaf "a" ⟨[3], [7, 8, 7]⟩ .nil) (.leaf "a" ⟨[], [0]⟩ .nil)) = some (.leaf "a" ⟨[3], [0, 8, 7]⟩ .nil : Tree Nat) := by
  refine ⟨?_, ?_, by decide +kernel⟩
  · exact ⟨rfl, ⟨rfl, rfl⟩, trivial⟩
  · exact ⟨rfl, rfl, trivial⟩

/-- For a class with a vector field the documented filter raises, or (if the length of the vectors is the batch size) mixes records: in the second case the two
records are both `[1, 2]`, so the first should stay `[1, 2]` and the second become the default `[0, 0]`, but both become `[1, 0]`. -/
theorem documented_filter_vector_false :
    whereInst ⟨[3], [true, false, true]⟩ (.leaf "v" ⟨[3, 2], [1, 2, 1, 2, 5, 6]⟩ .nil) (.leaf "v" ⟨[2], [0, 0]⟩ .nil) = (none : Option (Tree Nat)) ∧
    whereInst ⟨[2], [true, false]⟩ (.leaf "v" ⟨[2, 2], [1, 2, 1, 2]⟩ .nil) (.leaf "v" ⟨[2], [0, 0]⟩ .nil) =
      some (.leaf "v" ⟨[2, 2], [1, 0, 1, 0]⟩ .nil : Tree Nat) := by
  constructor <;> decide +kernel

end Where

end Pipeline
