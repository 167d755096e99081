import Verif.AggOut

/-!
# C102: a batch kept in packed form

`x.packed` is an instance of a generated class with the fields `words` and `tail` (aggregate_bitpack/__init__.py:44-70); users index it, concatenate it, put it in containers and
unpack the result.  A batch in packed form is a list of rows; selecting, setting and joining records (C46) act on that list.
-/

namespace Agg

open SortGroup Bitpack

/-! ## Specification -/

/-- The records number `idx` of an array with `n` values per record. -/
def pick {α : Type} (n : Nat) (idx : List Nat) (v : List α) : List α := idx.flatMap fun r => row n r v

/-- The batch of the records number `idx` of an instance. -/
def Inst.select {α : Type} (idx : List Nat) : Cls → Inst (List α) → Inst (List α)
  | .leaf _ _ sh rest, .leaf n v irest => .leaf n (pick (size sh) idx v) (Inst.select idx rest irest)
  | .nested _ sub rest, .nested n isub irest => .nested n (Inst.select idx sub isub) (Inst.select idx rest irest)
  | _, _ => .nil

/-- Two batches one after the other. -/
def Inst.append {α : Type} : Inst (List α) → Inst (List α) → Inst (List α)
  | .leaf n v rest, .leaf _ w rest' => .leaf n (v ++ w) (Inst.append rest rest')
  | .nested n sub rest, .nested _ sub' rest' => .nested n (Inst.append sub sub') (Inst.append rest rest')
  | _, _ => .nil

/-- An instance of `n` records of zeros. -/
def Cls.zeros (n : Nat) : Cls → Inst (List Nat)
  | .nil => .nil
  | .leaf m _ sh rest => .leaf m (List.replicate (n * size sh) 0) (rest.zeros n)
  | .nested m sub rest => .nested m (sub.zeros n) (rest.zeros n)

/-- Bit `q` of a packed record: the words, then the tail bytes, each with its lowest bit first. -/
def PackedRow.bit (r : PackedRow) (q : Nat) : Bool :=
  if q < 32 * r.words.length then (r.words.getD (q / 32) 0).testBit (q % 32)
  else (r.tail.getD ((q - 32 * r.words.length) / 8) 0).testBit ((q - 32 * r.words.length) % 8)

/-- A row of the shape and dtypes of the packed class. -/
def RowOk (c : Cls) (r : PackedRow) : Prop :=
  r.words.length = (layout c.bitCount).2.1 ∧ r.tail.length = (layout c.bitCount).2.2 ∧ (∀ w ∈ r.words, w < 2 ^ 32) ∧ ∀ b ∈ r.tail, b < 256

/-- `Packed.default(shape)` with `n` records (both fields have `fill_value=0`, __init__.py:55-62). -/
def packedDefault (c : Cls) (n : Nat) : List PackedRow :=
  List.replicate n ⟨List.replicate (layout c.bitCount).2.1 0, List.replicate (layout c.bitCount).2.2 0⟩

/-! ## Lemmas -/

theorem totalBits_eq (c : Cls) : totalBits c = c.bitCount := by rw [totalBits, walk_total]; omega

theorem row_flatMap {α β : Type} {G : β → List α} {n : Nat} (p : List β) (hG : ∀ x ∈ p, (G x).length = n) {i : Nat} {x : β} (h : p[i]? = some x) :
    row n i (p.flatMap G) = G x := by
  induction p generalizing i with
  | nil => simp at h
  | cons y p ih =>
    have hy := hG y (by simp)
    cases i with
    | zero =>
      rw [List.getElem?_cons_zero] at h
      cases h
      simp only [row, Nat.zero_mul, List.drop_zero, List.flatMap_cons]
      rw [List.take_append_of_le_length (by omega), List.take_of_length_le (by omega)]
    | succ i =>
      rw [List.getElem?_cons_succ] at h
      rw [← ih (fun x hx => hG x (by simp [hx])) h]
      simp only [row, List.flatMap_cons]
      rw [List.drop_append_of_length_le' hy i]
where
  List.drop_append_of_length_le' {α : Type} {a b : List α} {n : Nat} (h : a.length = n) (i : Nat) : (a ++ b).drop ((i + 1) * n) = b.drop (i * n) := by
    rw [List.drop_append, List.drop_eq_nil_of_le (by rw [h, Nat.succ_mul]; omega), List.nil_append, h]
    congr 1
    rw [Nat.succ_mul]
    omega

theorem mapM_getElem {β : Type} {p : List β} : ∀ {idx : List Nat} {p' : List β}, (idx.mapM fun i => p[i]?) = some p' →
    p'.length = idx.length ∧ ∀ (j i : Nat), idx[j]? = some i → p[i]? = p'[j]?
  | [], p', h => by
    rw [List.mapM_nil] at h
    cases h
    exact ⟨rfl, fun j i h => by simp at h⟩
  | a :: idx, p', h => by
    rw [List.mapM_cons] at h
    cases ha : p[a]? with
    | none => rw [ha] at h; cases h
    | some x =>
      rw [ha] at h
      cases hm : idx.mapM fun i => p[i]? with
      | none => simp [hm] at h
      | some l =>
        simp only [hm, Option.bind_eq_bind, Option.bind_some, Option.pure_def] at h
        cases h
        obtain ⟨h1, h2⟩ := mapM_getElem hm
        refine ⟨by simp [h1], ?_⟩
        intro j i hj
        cases j with
        | zero => rw [List.getElem?_cons_zero] at hj; cases hj; rw [ha, List.getElem?_cons_zero]
        | succ j => rw [List.getElem?_cons_succ] at hj; rw [List.getElem?_cons_succ]; exact h2 j i hj

theorem pick_flatMap {α β : Type} {G : β → List α} {n : Nat} (p : List β) (hG : ∀ x ∈ p, (G x).length = n) : ∀ {idx : List Nat} {p' : List β},
    (idx.mapM fun i => p[i]?) = some p' → pick n idx (p.flatMap G) = p'.flatMap G
  | [], p', h => by rw [List.mapM_nil] at h; cases h; rfl
  | a :: idx, p', h => by
    rw [List.mapM_cons] at h
    cases ha : p[a]? with
    | none => rw [ha] at h; cases h
    | some x =>
      rw [ha] at h
      cases hm : idx.mapM fun i => p[i]? with
      | none => simp [hm] at h
      | some l =>
        simp only [hm, Option.bind_eq_bind, Option.bind_some, Option.pure_def] at h
        cases h
        have := pick_flatMap p hG hm
        unfold pick at this ⊢
        rw [List.flatMap_cons, this, row_flatMap p hG ha, List.flatMap_cons]

/-- The instance with the array `f s` at every leaf `s`. -/
def viewOf {α : Type} (f : Leaf → α) : Cls → List String → Nat → Inst α
  | .nil, _, _ => .nil
  | .leaf n b sh rest, pre, off => .leaf n (f { path := pre ++ [n], bits := b, nvalues := size sh, offset := off }) (viewOf f rest pre (off + size sh * b))
  | .nested n sub rest, pre, off => .nested n (viewOf f sub (pre ++ [n]) off) (viewOf f rest pre (walk sub (pre ++ [n]) off).2)

theorem viewOf_conf {α : Type} {flatN : Nat} {f : Leaf → List α} : ∀ (c : Cls) (pre : List String) (off : Nat),
    (∀ s ∈ (walk c pre off).1, (f s).length = flatN * s.nvalues) → Conforms flatN c (viewOf f c pre off)
  | .nil, _, _, _ => trivial
  | .leaf n b sh rest, pre, off, h => by
    refine ⟨rfl, h _ (by simp [walk]), viewOf_conf rest pre _ fun s hs => h s (by simp [walk, hs])⟩
  | .nested n sub rest, pre, off, h => by
    refine ⟨rfl, viewOf_conf sub _ _ fun s hs => h s (by simp [walk, hs]), viewOf_conf rest pre _ fun s hs => h s (by simp [walk, hs])⟩

theorem flat_viewOf {α : Type} (f : Leaf → List α) : ∀ (c : Cls) (pre : List String) (off : Nat),
    flat c (viewOf f c pre off) pre off = (walk c pre off).1.map fun s => (s, f s)
  | .nil, _, _ => rfl
  | .leaf n b sh rest, pre, off => by simp only [flat, viewOf, walk, List.map_cons, flat_viewOf f rest]
  | .nested n sub rest, pre, off => by simp only [flat, viewOf, walk, List.map_append, flat_viewOf f sub, flat_viewOf f rest]

theorem viewOf_congr {α : Type} {f g : Leaf → α} : ∀ (c : Cls) (pre : List String) (off : Nat), (∀ s ∈ (walk c pre off).1, f s = g s) →
    viewOf f c pre off = viewOf g c pre off
  | .nil, _, _, _ => rfl
  | .leaf n b sh rest, pre, off, h => by
    have e1 := viewOf_congr (f := f) (g := g) rest pre (off + size sh * b) fun s hs => h s (by simp [walk, hs])
    have e2 := h ⟨pre ++ [n], b, size sh, off⟩ (by simp [walk])
    simp only [viewOf, e1, e2]
  | .nested n sub rest, pre, off, h => by
    have e1 := viewOf_congr (f := f) (g := g) sub (pre ++ [n]) off fun s hs => h s (by simp [walk, hs])
    have e2 := viewOf_congr (f := f) (g := g) rest pre (walk sub (pre ++ [n]) off).2 fun s hs => h s (by simp [walk, hs])
    simp only [viewOf, e1, e2]

theorem select_viewOf {α : Type} (idx : List Nat) (f : Leaf → List α) : ∀ (c : Cls) (pre : List String) (off : Nat),
    Inst.select idx c (viewOf f c pre off) = viewOf (fun s => pick s.nvalues idx (f s)) c pre off
  | .nil, _, _ => rfl
  | .leaf n b sh rest, pre, off => by simp only [Inst.select, viewOf, select_viewOf idx f rest]
  | .nested n sub rest, pre, off => by simp only [Inst.select, viewOf, select_viewOf idx f sub, select_viewOf idx f rest]

theorem append_viewOf {α : Type} (f g : Leaf → List α) : ∀ (c : Cls) (pre : List String) (off : Nat),
    Inst.append (viewOf f c pre off) (viewOf g c pre off) = viewOf (fun s => f s ++ g s) c pre off
  | .nil, _, _ => rfl
  | .leaf n b sh rest, pre, off => by simp only [Inst.append, viewOf, append_viewOf f g rest]
  | .nested n sub rest, pre, off => by simp only [Inst.append, viewOf, append_viewOf f g sub, append_viewOf f g rest]

theorem zeros_viewOf (n : Nat) : ∀ (c : Cls) (pre : List String) (off : Nat),
    c.zeros n = viewOf (fun s => List.replicate (n * s.nvalues) 0) c pre off
  | .nil, _, _ => rfl
  | .leaf m b sh rest, pre, off => by simp only [Cls.zeros, viewOf, ← zeros_viewOf n rest]
  | .nested m sub rest, pre, off => by simp only [Cls.zeros, viewOf, ← zeros_viewOf n sub, ← zeros_viewOf n rest]

theorem decodeField_length (ws : List Nat) (s : Leaf) : (decodeField ws s (allIdx s.nvalues)).length = s.nvalues := by
  simp [decodeField, allIdx]

theorem flatMap_length_const {α β : Type} {G : β → List α} {n : Nat} (p : List β) (hG : ∀ x ∈ p, (G x).length = n) : (p.flatMap G).length = p.length * n := by
  induction p with
  | nil => simp
  | cons y p ih => rw [List.flatMap_cons, List.length_append, hG y (by simp), ih fun x hx => hG x (by simp [hx]), List.length_cons, Nat.succ_mul]; omega

theorem decodeLeaf_length (c : Cls) (p : List PackedRow) (s : Leaf) : (decodeLeaf c p s).length = p.length * s.nvalues :=
  flatMap_length_const p fun _ _ => decodeField_length _ _

/-- Unpacking never fails. -/
theorem unpacked_eq {c : Cls} (hw : c.Wf) (p : List PackedRow) : unpacked c p = some (viewOf (decodeLeaf c p) c [] 0) := by
  unfold unpacked
  refine buildView_eq (flatN := p.length) _ c _ [] 0 (viewOf_conf c [] 0 fun s _ => decodeLeaf_length c p s) ?_
  intro q hq
  rw [flat_viewOf] at hq
  obtain ⟨s, hs, rfl⟩ := List.mem_map.1 hq
  exact lookup_unique (ss := specs c) (walk_unique c [] 0 hw) _ hs

theorem select_conf {α : Type} {flatN : Nat} {idx : List Nat} (hi : ∀ i ∈ idx, i < flatN) : ∀ (c : Cls) (x : Inst (List α)), Conforms flatN c x →
    Conforms idx.length c (Inst.select idx c x)
  | .nil, .nil, _ => trivial
  | .leaf n b sh rest, .leaf n' v irest, h =>
    ⟨h.1, flatMap_length_const idx fun r hr => row_length h.2.1 (hi r hr), select_conf hi rest irest h.2.2⟩
  | .nested n sub rest, .nested n' isub irest, h => ⟨h.1, select_conf hi sub isub h.2.1, select_conf hi rest irest h.2.2⟩
  | .nil, .leaf _ _ _, h => h.elim
  | .nil, .nested _ _ _, h => h.elim
  | .leaf _ _ _ _, .nil, h => h.elim
  | .leaf _ _ _ _, .nested _ _ _, h => h.elim
  | .nested _ _ _, .nil, h => h.elim
  | .nested _ _ _, .leaf _ _ _, h => h.elim

theorem flat_select {α : Type} {flatN : Nat} (idx : List Nat) : ∀ (c : Cls) (x : Inst (List α)) (pre : List String) (off : Nat), Conforms flatN c x →
    flat c (Inst.select idx c x) pre off = (flat c x pre off).map fun p => (p.1, pick p.1.nvalues idx p.2)
  | .nil, .nil, _, _, _ => rfl
  | .leaf n b sh rest, .leaf n' v irest, pre, off, h => by
    simp only [flat, Inst.select, List.map_cons, flat_select idx rest irest _ _ h.2.2]
  | .nested n sub rest, .nested n' isub irest, pre, off, h => by
    simp only [flat, Inst.select, List.map_append, flat_select idx sub isub _ _ h.2.1, flat_select idx rest irest _ _ h.2.2]
  | .nil, .leaf _ _ _, _, _, h => h.elim
  | .nil, .nested _ _ _, _, _, h => h.elim
  | .leaf _ _ _ _, .nil, _, _, h => h.elim
  | .leaf _ _ _ _, .nested _ _ _, _, _, h => h.elim
  | .nested _ _ _, .nil, _, _, h => h.elim
  | .nested _ _ _, .leaf _ _ _, _, _, h => h.elim

theorem append_conf {α : Type} {n m : Nat} : ∀ (c : Cls) (x y : Inst (List α)), Conforms n c x → Conforms m c y → Conforms (n + m) c (Inst.append x y)
  | .nil, .nil, .nil, _, _ => trivial
  | .leaf _ _ sh rest, .leaf _ v irest, .leaf _ w irest', h, h' =>
    ⟨h.1, by rw [List.length_append, h.2.1, h'.2.1, Nat.add_mul], append_conf rest irest irest' h.2.2 h'.2.2⟩
  | .nested _ sub rest, .nested _ isub irest, .nested _ isub' irest', h, h' =>
    ⟨h.1, append_conf sub isub isub' h.2.1 h'.2.1, append_conf rest irest irest' h.2.2 h'.2.2⟩
  | .nil, .leaf _ _ _, _, h, _ => h.elim
  | .nil, .nested _ _ _, _, h, _ => h.elim
  | .nil, .nil, .leaf _ _ _, _, h => h.elim
  | .nil, .nil, .nested _ _ _, _, h => h.elim
  | .leaf _ _ _ _, .nil, _, h, _ => h.elim
  | .leaf _ _ _ _, .nested _ _ _, _, h, _ => h.elim
  | .leaf _ _ _ _, .leaf _ _ _, .nil, _, h => h.elim
  | .leaf _ _ _ _, .leaf _ _ _, .nested _ _ _, _, h => h.elim
  | .nested _ _ _, .nil, _, h, _ => h.elim
  | .nested _ _ _, .leaf _ _ _, _, h, _ => h.elim
  | .nested _ _ _, .nested _ _ _, .nil, _, h => h.elim
  | .nested _ _ _, .nested _ _ _, .leaf _ _ _, _, h => h.elim

/-- The leaves of `append`, pairwise. -/
theorem flat_append {α : Type} {n m : Nat} : ∀ (c : Cls) (x y : Inst (List α)) (pre : List String) (off : Nat), Conforms n c x → Conforms m c y →
    flat c (Inst.append x y) pre off = ((flat c x pre off).zip (flat c y pre off)).map (fun p => (p.1.1, p.1.2 ++ p.2.2)) ∧
    (flat c x pre off).length = (flat c y pre off).length
  | .nil, .nil, .nil, _, _, _, _ => ⟨rfl, rfl⟩
  | .leaf _ b sh rest, .leaf _ v irest, .leaf _ w irest', pre, off, h, h' => by
    obtain ⟨e1, e2⟩ := flat_append rest irest irest' pre (off + size sh * b) h.2.2 h'.2.2
    exact ⟨by simp only [flat, Inst.append, e1, List.zip_cons_cons, List.map_cons], by simp only [flat, List.length_cons, e2]⟩
  | .nested nn sub rest, .nested _ isub irest, .nested _ isub' irest', pre, off, h, h' => by
    obtain ⟨e1, e2⟩ := flat_append sub isub isub' (pre ++ [nn]) off h.2.1 h'.2.1
    obtain ⟨g1, g2⟩ := flat_append rest irest irest' pre (walk sub (pre ++ [nn]) off).2 h.2.2 h'.2.2
    exact ⟨by simp only [flat, Inst.append, e1, g1]; rw [List.zip_append e2, List.map_append], by simp only [flat, List.length_append, e2, g2]⟩
  | .nil, .leaf _ _ _, _, _, _, h, _ => h.elim
  | .nil, .nested _ _ _, _, _, _, h, _ => h.elim
  | .nil, .nil, .leaf _ _ _, _, _, _, h => h.elim
  | .nil, .nil, .nested _ _ _, _, _, _, h => h.elim
  | .leaf _ _ _ _, .nil, _, _, _, h, _ => h.elim
  | .leaf _ _ _ _, .nested _ _ _, _, _, _, h, _ => h.elim
  | .leaf _ _ _ _, .leaf _ _ _, .nil, _, _, _, h => h.elim
  | .leaf _ _ _ _, .leaf _ _ _, .nested _ _ _, _, _, _, h => h.elim
  | .nested _ _ _, .nil, _, _, _, h, _ => h.elim
  | .nested _ _ _, .leaf _ _ _, _, _, _, h, _ => h.elim
  | .nested _ _ _, .nested _ _ _, .nil, _, _, _, h => h.elim
  | .nested _ _ _, .nested _ _ _, .leaf _ _ _, _, _, _, h => h.elim

theorem stream_flat (fl : List (Leaf × List Int)) (r : Nat) :
    stream (fl.map Prod.fst) (fl.map Prod.snd) r = (fl.flatMap fun p => row p.1.nvalues r p.2).map toU32 := by
  unfold stream
  have h : (fl.map Prod.fst).zip (fl.map Prod.snd) = fl := by
    induction fl with
    | nil => rfl
    | cons a l ih => simp only [List.map_cons, List.zip_cons_cons, ih]
  rw [h]

/-- The words of a record depend on the record alone. -/
theorem rowWords_congr {c : Cls} {x y : Inst (List Int)} {i j : Nat}
    (hf : (flat c x [] 0).map Prod.fst = (flat c y [] 0).map Prod.fst)
    (hr : ((flat c x [] 0).flatMap fun p => row p.1.nvalues i p.2) = (flat c y [] 0).flatMap fun p => row p.1.nvalues j p.2) :
    rowWords c x i = rowWords c y j := by
  unfold rowWords
  rw [stream_flat, stream_flat, hf, hr]

theorem flatMap_congr' {α β : Type} {l : List α} {f g : α → List β} (h : ∀ x ∈ l, f x = g x) : l.flatMap f = l.flatMap g := by
  induction l with
  | nil => rfl
  | cons a l ih => rw [List.flatMap_cons, List.flatMap_cons, h a (by simp), ih fun x hx => h x (by simp [hx])]

/-! ## Packing commutes with selecting and joining records -/

/-- **C102.**  Packing the records number `idx` (any selection, any order, with repetitions) of a batch gives the packed records number `idx`: indexing, slicing, `take`,
reordering and `at[].set` (by selecting from a concatenation) may be done before or after packing. -/
theorem packed_select {kernel : List Nat → Tables → List Nat} (hk : IsPackKernel kernel) {c : Cls} (hw : c.Wf) {flatN : Nat} {inst : Inst (List Int)}
    (hc : Conforms flatN c inst) {p : List PackedRow} (hp : packed kernel c flatN inst = some p) {idx : List Nat} (hi : ∀ i ∈ idx, i < flatN) :
    packed kernel c idx.length (Inst.select idx c inst) = idx.mapM fun i => p[i]? := by
  rw [packed_eq hk hw hc] at hp
  cases hp
  rw [packed_eq hk hw (select_conf hi c inst hc)]
  have hm : (idx.mapM fun i => ((List.range flatN).map fun r =>
      splitRow (layout (totalBits c)).1 (layout (totalBits c)).2.2 (rowWords c inst r))[i]?) =
      some (idx.map fun i => splitRow (layout (totalBits c)).1 (layout (totalBits c)).2.2 (rowWords c inst i)) := by
    induction idx with
    | nil => rfl
    | cons a idx ih =>
      rw [List.mapM_cons, ih fun i h => hi i (by simp [h]), List.getElem?_map, List.getElem?_range (hi a (by simp))]
      rfl
  rw [hm]
  congr 1
  apply List.ext_getElem
  · simp
  · intro j h1 h2
    simp only [List.length_map, List.length_range] at h1 h2
    simp only [List.getElem_map, List.getElem_range]
    congr 1
    apply rowWords_congr
    · rw [flat_select idx c inst [] 0 hc, List.map_map]; rfl
    · rw [flat_select idx c inst [] 0 hc, List.flatMap_map]
      apply flatMap_congr'
      intro q hq
      have hl := (flat_conf c inst [] 0 hc hw q hq).1
      exact row_flatMap idx (fun r hr => row_length hl (hi r hr)) (List.getElem?_eq_getElem h2)

theorem zip_row_left {n j : Nat} (hj : j < n) : ∀ (fx fy : List (Leaf × List Int)), fx.length = fy.length → (∀ q ∈ fx, q.2.length = n * q.1.nvalues) →
    ((fx.zip fy).flatMap fun p => row p.1.1.nvalues j (p.1.2 ++ p.2.2)) = fx.flatMap fun p => row p.1.nvalues j p.2
  | [], _, _, _ => rfl
  | a :: fx, [], e, _ => by simp at e
  | a :: fx, b :: fy, e, h => by
    rw [List.zip_cons_cons, List.flatMap_cons, List.flatMap_cons, zip_row_left hj fx fy (by simpa using e) fun q hq => h q (by simp [hq])]
    congr 1
    have := h a (by simp)
    have h3 := Nat.mul_le_mul_right a.1.nvalues (show j + 1 ≤ n from hj)
    rw [Nat.succ_mul] at h3
    unfold row
    simp only
    rw [List.drop_append_of_le_length (by omega), List.take_append_of_le_length (by rw [List.length_drop]; omega)]

theorem zip_row_right {n j : Nat} (hj : n ≤ j) : ∀ (fx fy : List (Leaf × List Int)), fx.map Prod.fst = fy.map Prod.fst →
    (∀ q ∈ fx, q.2.length = n * q.1.nvalues) →
    ((fx.zip fy).flatMap fun p => row p.1.1.nvalues j (p.1.2 ++ p.2.2)) = fy.flatMap fun p => row p.1.nvalues (j - n) p.2
  | [], [], _, _ => rfl
  | [], b :: fy, e, _ => by simp at e
  | a :: fx, [], e, _ => by simp at e
  | a :: fx, b :: fy, e, h => by
    simp only [List.map_cons, List.cons.injEq] at e
    rw [List.zip_cons_cons, List.flatMap_cons, List.flatMap_cons, zip_row_right hj fx fy e.2 fun q hq => h q (by simp [hq])]
    congr 1
    have h0 := h a (by simp)
    have h3 := Nat.mul_le_mul_right a.1.nvalues hj
    simp only
    rw [e.1] at h0 h3 ⊢
    unfold row
    rw [List.drop_append, List.drop_eq_nil_of_le (by omega), List.nil_append, h0, ← Nat.sub_mul]

/-- **C102.**  Packing two batches one after the other gives the two packed batches one after the other. -/
theorem packed_append {kernel : List Nat → Tables → List Nat} (hk : IsPackKernel kernel) {c : Cls} (hw : c.Wf) {n m : Nat} {x y : Inst (List Int)}
    (hx : Conforms n c x) (hy : Conforms m c y) {p q : List PackedRow} (hp : packed kernel c n x = some p) (hq : packed kernel c m y = some q) :
    packed kernel c (n + m) (Inst.append x y) = some (p ++ q) := by
  rw [packed_eq hk hw hx] at hp
  rw [packed_eq hk hw hy] at hq
  cases hp
  cases hq
  rw [packed_eq hk hw (append_conf c x y hx hy)]
  obtain ⟨e1, e2⟩ := flat_append c x y [] 0 hx hy
  have hxy : (flat c x [] 0).map Prod.fst = (flat c y [] 0).map Prod.fst := by rw [flat_fst c x [] 0 hx, flat_fst c y [] 0 hy]
  have hfst : (flat c (Inst.append x y) [] 0).map Prod.fst = (flat c x [] 0).map Prod.fst := by
    rw [flat_fst c _ [] 0 (append_conf c x y hx hy), flat_fst c x [] 0 hx]
  have hlx := fun q hq => (flat_conf c x [] 0 hx hw q hq).1
  have hly := fun q hq => (flat_conf c y [] 0 hy hw q hq).1
  congr 1
  apply List.ext_getElem
  · simp
  · intro j h1 h2
    simp only [List.length_map, List.length_range] at h1
    simp only [List.getElem_map, List.getElem_range]
    by_cases hj : j < n
    · rw [List.getElem_append_left (by simpa using hj)]
      simp only [List.getElem_map, List.getElem_range]
      congr 1
      apply rowWords_congr hfst
      rw [e1, List.flatMap_map]
      exact zip_row_left hj _ _ e2 hlx
    · rw [List.getElem_append_right (by simpa using hj)]
      simp only [List.getElem_map, List.getElem_range, List.length_map, List.length_range]
      congr 1
      apply rowWords_congr (hfst.trans hxy)
      rw [e1, List.flatMap_map]
      exact zip_row_right (Nat.le_of_not_lt hj) _ _ hxy hlx

/-- **C102.**  Unpacking commutes with selecting records, whatever the packed records hold. -/
theorem unpacked_select {c : Cls} (hw : c.Wf) {p p' : List PackedRow} {u : Inst (List Nat)} (hu : unpacked c p = some u) {idx : List Nat}
    (hp : (idx.mapM fun i => p[i]?) = some p') : unpacked c p' = some (Inst.select idx c u) := by
  rw [unpacked_eq hw] at hu ⊢
  cases hu
  rw [select_viewOf]
  congr 1
  apply viewOf_congr
  intro s _
  exact (pick_flatMap p (fun _ _ => decodeField_length _ _) hp).symm

/-- **C102.**  Unpacking commutes with joining batches. -/
theorem unpacked_append {c : Cls} (hw : c.Wf) {p q : List PackedRow} {u v : Inst (List Nat)} (hu : unpacked c p = some u) (hv : unpacked c q = some v) :
    unpacked c (p ++ q) = some (Inst.append u v) := by
  rw [unpacked_eq hw] at hu hv ⊢
  cases hu
  cases hv
  rw [append_viewOf]
  congr 1
  apply viewOf_congr
  intro s _
  show (p ++ q).flatMap _ = p.flatMap _ ++ q.flatMap _
  rw [List.flatMap_append]

/-! ## Packed instances that were not made by packing -/

theorem join_bit {c : Cls} {r : PackedRow} (h : RowOk c r) (q : Nat) :
    wordBit (joinRow (layout c.bitCount).2.1 (layout c.bitCount).2.2 r) q = r.bit q ∧
    (joinRow (layout c.bitCount).2.1 (layout c.bitCount).2.2 r).length = (layout c.bitCount).1 ∧
    ∀ w ∈ joinRow (layout c.bitCount).2.1 (layout c.bitCount).2.2 r, w < 2 ^ 32 := by
  obtain ⟨h1, h2, h3, h4⟩ := h
  obtain ⟨f1, f2, f3, f4, f5⟩ := layout_facts c.bitCount
  generalize (layout c.bitCount).1 = wa at *
  generalize (layout c.bitCount).2.1 = st at *
  generalize (layout c.bitCount).2.2 = tb at *
  unfold joinRow PackedRow.bit
  by_cases h0 : tb = 0
  · rw [if_pos h0]
    refine ⟨?_, by rw [h1, f4 h0], h3⟩
    have ht : r.tail = [] := List.length_eq_zero_iff.1 (by omega)
    unfold wordBit
    split
    · rfl
    · rw [List.getD_eq_getElem?_getD, List.getElem?_eq_none (by omega), ht]
      simp
  · rw [if_neg h0]
    obtain ⟨g1, g2⟩ := f5 h0
    have hbit : ∀ b, ((List.range tb).foldl (fun acc k => acc ||| ((r.tail.getD k 0 <<< (k * 8)) % 2 ^ 32)) 0).testBit b =
        (decide (b < 8 * tb) && (r.tail.getD (b / 8) 0).testBit (b % 8)) := by
      intro b
      rw [foldl_or_testBit, Nat.zero_testBit, Bool.false_or, Bool.eq_iff_iff, List.any_eq_true]
      have h8 : ∀ k, r.tail.getD k 0 < 2 ^ 8 := by
        intro k
        rw [List.getD_eq_getElem?_getD]
        cases hk : r.tail[k]? with
        | none => decide
        | some x => exact h4 x (List.mem_of_getElem? hk)
      constructor
      · rintro ⟨k, hk, h⟩
        rw [List.mem_range] at hk
        rw [Nat.testBit_mod_two_pow, Nat.testBit_shiftLeft] at h
        simp only [Bool.and_eq_true, decide_eq_true_eq] at h
        obtain ⟨a1, a2, a3⟩ := h
        have : b - k * 8 < 8 := by
          rcases Nat.lt_or_ge (b - k * 8) 8 with h' | h'
          · exact h'
          · rw [testBit_ge (h8 k) h'] at a3; cases a3
        rw [show b / 8 = k by omega, show b % 8 = b - k * 8 by omega, a3]
        simp
        omega
      · intro h
        simp only [Bool.and_eq_true, decide_eq_true_eq] at h
        refine ⟨b / 8, List.mem_range.2 (by omega), ?_⟩
        rw [Nat.testBit_mod_two_pow, Nat.testBit_shiftLeft, show b - b / 8 * 8 = b % 8 by omega, h.2]
        simp
        omega
    have hlast : (List.range tb).foldl (fun acc k => acc ||| ((r.tail.getD k 0 <<< (k * 8)) % 2 ^ 32)) 0 < 2 ^ 32 :=
      foldl_or_lt _ _ _ _ (by decide) fun _ _ => Nat.mod_lt _ (by decide)
    generalize (List.range tb).foldl (fun acc k => acc ||| ((r.tail.getD k 0 <<< (k * 8)) % 2 ^ 32)) 0 = last at hbit hlast ⊢
    have hj : (if st ≠ 0 then r.words ++ [last] else [last]) = r.words ++ [last] := by
      by_cases hs : st ≠ 0
      · rw [if_pos hs]
      · rw [if_neg hs, List.length_eq_zero_iff.1 (show r.words.length = 0 by omega)]; rfl
    simp only [hj]
    refine ⟨?_, by simp [h1]; omega, ?_⟩
    · unfold wordBit
      by_cases hq : q < 32 * r.words.length
      · rw [if_pos hq, List.getD_eq_getElem?_getD, List.getElem?_append_left (by omega), List.getD_eq_getElem?_getD]
      · rw [if_neg hq]
        by_cases hq2 : q / 32 = r.words.length
        · rw [List.getD_eq_getElem?_getD, List.getElem?_append_right (by omega), hq2, Nat.sub_self, List.getElem?_cons_zero, Option.getD_some, hbit,
            show (q - 32 * r.words.length) / 8 = q % 32 / 8 by omega, show (q - 32 * r.words.length) % 8 = q % 32 % 8 by omega]
          by_cases hb : q % 32 < 8 * tb
          · rw [decide_eq_true hb, Bool.true_and]
          · rw [decide_eq_false hb, List.getD_eq_getElem?_getD, List.getElem?_eq_none (by omega)]; simp
        · rw [List.getD_eq_getElem?_getD, List.getElem?_eq_none (by simp; omega), List.getD_eq_getElem?_getD, List.getElem?_eq_none (by omega)]; simp
    · intro w hm
      rcases List.mem_append.1 hm with hm | hm
      · exact h3 w hm
      · rw [List.mem_singleton.1 hm]; exact hlast

/-- Storing the words of a row again gives the row. -/
theorem split_joinRow {c : Cls} {r : PackedRow} (h : RowOk c r) :
    splitRow (layout c.bitCount).1 (layout c.bitCount).2.2 (joinRow (layout c.bitCount).2.1 (layout c.bitCount).2.2 r) = r := by
  have hjl := (join_bit h 0).2
  have hjb := fun q => (join_bit h q).1
  obtain ⟨h1, h2, h3, h4⟩ := h
  obtain ⟨f1, f2, f3, f4, f5⟩ := layout_facts c.bitCount
  generalize (layout c.bitCount).1 = wa at *
  generalize (layout c.bitCount).2.1 = st at *
  generalize (layout c.bitCount).2.2 = tb at *
  cases r with
  | mk words tail =>
    simp only at h1 h2 h3 h4
    by_cases h0 : tb = 0
    · unfold splitRow joinRow
      rw [if_pos h0, if_pos h0, List.length_eq_zero_iff.1 (show tail.length = 0 by omega)]
    · obtain ⟨g1, g2⟩ := f5 h0
      have hj : ∃ last, joinRow st tb ⟨words, tail⟩ = words ++ [last] := by
        refine ⟨(List.range tb).foldl (fun acc k => acc ||| ((tail.getD k 0 <<< (k * 8)) % 2 ^ 32)) 0, ?_⟩
        unfold joinRow
        rw [if_neg h0]
        by_cases hs : st ≠ 0
        · exact if_pos hs
        · rw [List.length_eq_zero_iff.1 (show words.length = 0 by omega)]
          exact if_neg hs
      obtain ⟨last, hj⟩ := hj
      rw [hj] at hjb ⊢
      unfold splitRow
      rw [if_neg h0]
      congr 1
      · by_cases hs : wa > 1
        · rw [if_pos hs, List.dropLast_concat]
        · rw [if_neg hs, List.length_eq_zero_iff.1 (show words.length = 0 by omega)]
      · rw [List.getLastD_concat]
        apply List.ext_getElem
        · simp [h2]
        · intro k hk1 hk2
          have hg : (tab tb fun k => (last >>> (k * 8)) &&& 0xFF)[k]? = some ((last >>> (k * 8)) &&& 0xFF) := by
            rw [tab_getElem?, if_pos (by omega)]
          rw [List.getElem?_eq_getElem hk1] at hg
          rw [Option.some.inj hg]
          apply Nat.eq_of_testBit_eq
          intro b
          rw [Nat.testBit_and, Nat.testBit_shiftRight, show (0xFF : Nat) = 2 ^ 8 - 1 from rfl, Nat.testBit_two_pow_sub_one]
          by_cases hb : b < 8
          · rw [decide_eq_true hb, Bool.and_true]
            have := hjb (32 * words.length + (k * 8 + b))
            unfold wordBit PackedRow.bit at this
            simp only at this
            rw [if_neg (by omega), List.getD_eq_getElem?_getD, List.getElem?_append_right (by omega),
              show (32 * words.length + (k * 8 + b)) / 32 - words.length = 0 by omega, List.getElem?_cons_zero, Option.getD_some,
              show (32 * words.length + (k * 8 + b)) % 32 = k * 8 + b by omega,
              show (32 * words.length + (k * 8 + b) - 32 * words.length) / 8 = k by omega,
              show (32 * words.length + (k * 8 + b) - 32 * words.length) % 8 = b by omega,
              List.getD_eq_getElem?_getD, List.getElem?_eq_getElem hk2, Option.getD_some] at this
            exact this
          · rw [decide_eq_false hb, Bool.and_false, testBit_ge (show tail[k] < 2 ^ 8 from h4 _ (List.getElem_mem hk2)) (by omega)]

theorem viewOf_ints (f : Leaf → List Nat) : ∀ (c : Cls) (pre : List String) (off : Nat),
    (viewOf f c pre off).ints = viewOf (fun s => (f s).map Int.ofNat) c pre off
  | .nil, _, _ => rfl
  | .leaf n b sh rest, pre, off => by simp only [viewOf, Inst.ints, viewOf_ints f rest]
  | .nested n sub rest, pre, off => by simp only [viewOf, Inst.ints, viewOf_ints f sub, viewOf_ints f rest]

theorem viewOf_inRange {f : Leaf → List Nat} : ∀ (c : Cls) (pre : List String) (off : Nat), (∀ s ∈ (walk c pre off).1, ∀ x ∈ f s, x < 2 ^ s.bits) →
    InRange c (viewOf f c pre off)
  | .nil, _, _, _ => trivial
  | .leaf n b sh rest, pre, off, h =>
    ⟨h ⟨pre ++ [n], b, size sh, off⟩ (by simp [walk]), viewOf_inRange rest pre _ fun s hs => h s (by simp [walk, hs])⟩
  | .nested n sub rest, pre, off, h =>
    ⟨viewOf_inRange sub _ _ fun s hs => h s (by simp [walk, hs]), viewOf_inRange rest pre _ fun s hs => h s (by simp [walk, hs])⟩

theorem walk_bits : ∀ (c : Cls) (pre : List String) (off : Nat), c.Wf → ∀ s ∈ (walk c pre off).1, 1 ≤ s.bits ∧ s.bits ≤ 32
  | .nil, _, _, _, s, hs => by cases hs
  | .leaf n b sh rest, pre, off, h, s, hs => by
    rcases List.mem_cons.1 hs with rfl | hs
    · exact ⟨h.2.1, h.2.2.1⟩
    · exact walk_bits rest pre _ h.2.2.2 s hs
  | .nested n sub rest, pre, off, h, s, hs => by
    rcases List.mem_append.1 hs with hs | hs
    · exact walk_bits sub _ _ h.2.1 s hs
    · exact walk_bits rest pre _ h.2.2 s hs

/-- What `unpacked` gives is a well-formed instance with values that fit. -/
theorem unpacked_wf {c : Cls} (hw : c.Wf) {p : List PackedRow} {u : Inst (List Nat)} (hu : unpacked c p = some u) : Conforms p.length c u ∧ InRange c u := by
  rw [unpacked_eq hw] at hu
  cases hu
  refine ⟨viewOf_conf c [] 0 fun s _ => decodeLeaf_length c p s, viewOf_inRange c [] 0 fun s hs x hx => ?_⟩
  obtain ⟨r, _, hr⟩ := List.mem_flatMap.1 hx
  obtain ⟨i, _, rfl⟩ := List.mem_map.1 hr
  exact decode_lt (walk_bits c [] 0 hw s hs).2

/-- The words made from an unpacked instance: the old ones with the unused bits cleared. -/
theorem repack_bit {c : Cls} (hw : c.Wf) (hsz : c.bitCount ≤ 2 ^ 32) {p : List PackedRow} (hok : ∀ r ∈ p, RowOk c r) {u : Inst (List Nat)}
    (hu : unpacked c p = some u) {r : Nat} {x : PackedRow} (hx : p[r]? = some x) (q : Nat) :
    wordBit (rowWords c u.ints r) q = (decide (q < c.bitCount) && x.bit q) := by
  obtain ⟨hcu, hru⟩ := unpacked_wf hw hu
  obtain ⟨hci, hred⟩ := reduced_ints c u hcu hru
  obtain ⟨hrl, _⟩ := List.getElem?_eq_some_iff.1 hx
  have hxok := hok x (List.mem_of_getElem? hx)
  by_cases hq : q < c.bitCount
  · rw [decide_eq_true hq, Bool.true_and, ← (join_bit hxok q).1]
    obtain ⟨f1, _⟩ := layout_facts c.bitCount
    rw [Bool.eq_iff_iff, rowWords_bit hw hci hrl (by rw [totalBits_eq]; omega), hred]
    have hcon := flat_contig hcu
    rw [totalBits_eq] at hcon
    obtain ⟨cl, hcl, h1, h2⟩ := cells_cover (r := r) hcon (fun p hp => (flat_conf c u [] 0 hcu hw p hp).2.1) (Nat.zero_le q) hq
    have hval : cl.2.2.testBit (q - cl.1) = wordBit (joinRow (layout c.bitCount).2.1 (layout c.bitCount).2.2 x) q := by
      have hrange := cells_range hcon cl hcl
      obtain ⟨sv, hsv, i, hi, rfl⟩ := mem_cells.1 hcl
      rw [unpacked_eq hw] at hu
      cases hu
      rw [flat_viewOf] at hsv
      obtain ⟨s, hs, rfl⟩ := List.mem_map.1 hsv
      obtain ⟨b1, b2⟩ := walk_bits c [] 0 hw s hs
      simp only at h1 h2 hrange hi ⊢
      rw [show row s.nvalues r (decodeLeaf c p s) = decodeField (joinRow (layout (totalBits c)).2.1 (layout (totalBits c)).2.2 x) s (allIdx s.nvalues) from
        row_flatMap p (fun _ _ => decodeField_length _ _) hx]
      have hg : (decodeField (joinRow (layout (totalBits c)).2.1 (layout (totalBits c)).2.2 x) s (allIdx s.nvalues)).getD i 0 =
          decode (joinRow (layout (totalBits c)).2.1 (layout (totalBits c)).2.2 x) s.bits ((s.offset + toU32 (Int.ofNat i) * s.bits) % 2 ^ 32) := by
        rw [List.getD_eq_getElem?_getD]
        unfold decodeField allIdx
        rw [List.map_map, List.getElem?_map, List.getElem?_range hi]
        rfl
      have hu32 : toU32 (Int.ofNat i) = i := by
        have : i * 1 ≤ i * s.bits := Nat.mul_le_mul_left i b1
        show ((i : Int) % 2 ^ 32).toNat = i
        omega
      rw [hg, hu32, Nat.mod_eq_of_lt (by omega), totalBits_eq, decode_testBit (join_bit hxok 0).2.2 b2 (by rw [(join_bit hxok 0).2.1]; omega),
        decide_eq_true (by omega), Bool.true_and]
      congr 1
      omega
    constructor
    · rintro ⟨y, hy, g1, g2, g3⟩
      rw [cells_unique (q := q) hcon y hy cl hcl g1 g2 h1 h2, hval] at g3
      exact g3
    · intro h
      exact ⟨cl, hcl, h1, h2, by rw [hval]; exact h⟩
  · rw [decide_eq_false hq, Bool.false_and, rowWords_high hw hci hrl q (by rw [totalBits_eq]; omega)]

/-- **C102.**  For every packed batch of the right shape and dtypes, made by packing or not (default, random, loaded, computed): packing what it unpacks to gives it back if and
only if the bits after the last value are zero in every record. -/
theorem repack_iff {kernel : List Nat → Tables → List Nat} (hk : IsPackKernel kernel) {c : Cls} (hw : c.Wf) (hsz : c.bitCount ≤ 2 ^ 32)
    {p : List PackedRow} (hok : ∀ r ∈ p, RowOk c r) {u : Inst (List Nat)} (hu : unpacked c p = some u) :
    packed kernel c p.length u.ints = some p ↔ ∀ r ∈ p, ∀ q, c.bitCount ≤ q → r.bit q = false := by
  obtain ⟨hcu, hru⟩ := unpacked_wf hw hu
  obtain ⟨hci, _⟩ := reduced_ints c u hcu hru
  rw [packed_eq hk hw hci]
  constructor
  · intro h x hx q hq
    obtain ⟨r, hr, rfl⟩ := List.getElem_of_mem hx
    have hrow : splitRow (layout (totalBits c)).1 (layout (totalBits c)).2.2 (rowWords c u.ints r) = p[r] := by
      have h3 := Option.some.inj h
      have h4 : ((List.range p.length).map fun r => splitRow (layout (totalBits c)).1 (layout (totalBits c)).2.2 (rowWords c u.ints r))[r]? = p[r]? := by rw [h3]
      rw [List.getElem?_map, List.getElem?_range hr, List.getElem?_eq_getElem hr] at h4
      exact Option.some.inj h4
    have hj := join_rowWords hw hci hr
    rw [hrow, totalBits_eq] at hj
    rw [← (join_bit (hok _ hx) q).1, hj, rowWords_high hw hci hr q (by rw [totalBits_eq]; exact hq)]
  · intro h
    congr 1
    apply List.ext_getElem
    · simp
    · intro r h1 h2
      simp only [List.getElem_map, List.getElem_range]
      have hok' := hok _ (List.getElem_mem h2)
      have he : rowWords c u.ints r = joinRow (layout c.bitCount).2.1 (layout c.bitCount).2.2 p[r] := by
        apply words_ext
        · rw [rowWords_length, (join_bit hok' 0).2.1, totalBits_eq]
        · exact rowWords_lt _ _ _
        · exact (join_bit hok' 0).2.2
        · intro q hq
          rw [repack_bit hw hsz hok hu (List.getElem?_eq_getElem h2), (join_bit hok' q).1]
          by_cases hq2 : q < c.bitCount
          · rw [decide_eq_true hq2, Bool.true_and]
          · rw [decide_eq_false hq2, Bool.false_and, h _ (List.getElem_mem h2) q (by omega)]
      rw [he, totalBits_eq, split_joinRow hok']

theorem zero_bit (a b q : Nat) : (PackedRow.mk (List.replicate a 0) (List.replicate b 0)).bit q = false := by
  have h : ∀ n i, (List.replicate n 0).getD i 0 = 0 := by
    intro n i
    rw [List.getD_eq_getElem?_getD, List.getElem?_replicate]
    split <;> rfl
  unfold PackedRow.bit
  simp only [h, Nat.zero_testBit]
  split <;> rfl

theorem packedDefault_ok (c : Cls) (n : Nat) : ∀ r ∈ packedDefault c n, RowOk c r := by
  intro r hr
  rw [List.eq_of_mem_replicate hr]
  refine ⟨by simp, by simp, fun w hw => ?_, fun w hw => ?_⟩ <;> rw [List.eq_of_mem_replicate hw] <;> decide

/-- **C102.**  `Packed.default(shape)` unpacks to zeros in every field, whatever the fill values of the class. -/
theorem packed_default_zeros {c : Cls} (hw : c.Wf) (hsz : c.bitCount ≤ 2 ^ 32) (n : Nat) : unpacked c (packedDefault c n) = some (c.zeros n) := by
  rw [unpacked_eq hw, zeros_viewOf n c [] 0]
  congr 1
  apply viewOf_congr
  intro s hs
  obtain ⟨b1, b2⟩ := walk_bits c [] 0 hw s hs
  have hl := decodeLeaf_length c (packedDefault c n) s
  rw [show (packedDefault c n).length = n by simp [packedDefault]] at hl
  rw [List.eq_replicate_iff]
  refine ⟨hl, fun x hx => ?_⟩
  obtain ⟨r, hr, hx⟩ := List.mem_flatMap.1 hx
  obtain ⟨i, hi, rfl⟩ := List.mem_map.1 hx
  obtain ⟨k, hk, rfl⟩ := List.mem_map.1 hi
  have hk := List.mem_range.1 hk
  have hok := packedDefault_ok c n r hr
  have hcon := walk_contig c [] 0
  have hin := (contig_disjoint (q := 0) hcon).1 s hs
  rw [walk_total] at hin
  have hle := Nat.mul_le_mul_right s.bits (show k + 1 ≤ s.nvalues from hk)
  rw [Nat.succ_mul] at hle
  obtain ⟨f1, f2, _⟩ := layout_facts c.bitCount
  apply Nat.eq_of_testBit_eq
  intro b
  have hu32 : toU32 (Int.ofNat k) = k := by
    have : k * 1 ≤ k * s.bits := Nat.mul_le_mul_left k b1
    show ((k : Int) % 2 ^ 32).toNat = k
    omega
  have hpos : (s.offset + k * s.bits) % 2 ^ 32 = s.offset + k * s.bits := Nat.mod_eq_of_lt (by omega)
  have hw2 : r = ⟨List.replicate (layout c.bitCount).2.1 0, List.replicate (layout c.bitCount).2.2 0⟩ := List.eq_of_mem_replicate hr
  show (decode (joinRow (layout (totalBits c)).2.1 (layout (totalBits c)).2.2 r) s.bits ((s.offset + toU32 (Int.ofNat k) * s.bits) % 2 ^ 32)).testBit b = (0 : Nat).testBit b
  rw [hu32, hpos, totalBits_eq, Nat.zero_testBit, decode_testBit (join_bit hok 0).2.2 b2 (by rw [(join_bit hok 0).2.1]; omega), (join_bit hok _).1,
    hw2, zero_bit, Bool.and_false]

/-- **C102.**  For a class that does not fill its words and bytes, equality (and so the hash) of packed records is not equality of what they hold: there is a packed record, of
the right shape and dtypes, that differs from the packing of the instance it unpacks to, although both unpack to that instance. -/
theorem packed_alias {kernel : List Nat → Tables → List Nat} (hk : IsPackKernel kernel) {c : Cls} (hw : c.Wf) (hsz : c.bitCount ≤ 2 ^ 32)
    (hslack : c.bitCount < 32 * (layout c.bitCount).2.1 + 8 * (layout c.bitCount).2.2) :
    ∃ (r r' : PackedRow) (u : Inst (List Nat)), RowOk c r ∧ packed kernel c 1 u.ints = some [r'] ∧ r ≠ r' ∧ unpacked c [r] = some u ∧ unpacked c [r'] = some u := by
  have hok : RowOk c ⟨List.replicate (layout c.bitCount).2.1 0xFFFFFFFF, List.replicate (layout c.bitCount).2.2 0xFF⟩ := by
    refine ⟨by simp, by simp, fun w hw => ?_, fun w hw => ?_⟩ <;> rw [List.eq_of_mem_replicate hw] <;> decide
  have hbit : (PackedRow.mk (List.replicate (layout c.bitCount).2.1 0xFFFFFFFF) (List.replicate (layout c.bitCount).2.2 0xFF)).bit c.bitCount = true := by
    unfold PackedRow.bit
    simp only [List.length_replicate]
    by_cases h : c.bitCount < 32 * (layout c.bitCount).2.1
    · rw [if_pos h, List.getD_eq_getElem?_getD, List.getElem?_replicate, if_pos (by omega), Option.getD_some, show (0xFFFFFFFF : Nat) = 2 ^ 32 - 1 from rfl,
        Nat.testBit_two_pow_sub_one, decide_eq_true (by omega)]
    · rw [if_neg h, List.getD_eq_getElem?_getD, List.getElem?_replicate, if_pos (by omega), Option.getD_some, show (0xFF : Nat) = 2 ^ 8 - 1 from rfl,
        Nat.testBit_two_pow_sub_one, decide_eq_true (by omega)]
  generalize (PackedRow.mk (List.replicate (layout c.bitCount).2.1 0xFFFFFFFF) (List.replicate (layout c.bitCount).2.2 0xFF)) = r at hok hbit
  have hall : ∀ x ∈ [r], RowOk c x := by intro x hx; rw [List.mem_singleton.1 hx]; exact hok
  have hu := unpacked_eq hw [r]
  generalize viewOf (decodeLeaf c [r]) c [] 0 = u at hu
  obtain ⟨hcu, hru⟩ := unpacked_wf hw hu
  obtain ⟨q, hq, hqu⟩ := aggregate_roundtrip_exact hk hw hsz hcu hru
  have hlen : q.length = 1 := by
    rw [packed_eq hk hw (reduced_ints c u hcu hru).1] at hq
    rw [← Option.some.inj hq]
    simp
  obtain ⟨r', rfl⟩ := List.length_eq_one_iff.1 hlen
  refine ⟨r, r', u, hok, hq, ?_, hu, hqu⟩
  intro e
  subst e
  have := (repack_iff hk hw hsz hall hu).1 hq r (by simp) c.bitCount (Nat.le_refl _)
  rw [hbit] at this
  cases this

/-- **C102.**  … and for a class that fills them, every packed record is the packing of what it unpacks to. -/
theorem repack_full {kernel : List Nat → Tables → List Nat} (hk : IsPackKernel kernel) {c : Cls} (hw : c.Wf) (hsz : c.bitCount ≤ 2 ^ 32)
    (hfull : c.bitCount = 32 * (layout c.bitCount).2.1 + 8 * (layout c.bitCount).2.2) {p : List PackedRow} (hok : ∀ r ∈ p, RowOk c r) {u : Inst (List Nat)}
    (hu : unpacked c p = some u) : packed kernel c p.length u.ints = some p := by
  rw [repack_iff hk hw hsz hok hu]
  intro r hr q hq
  obtain ⟨h1, h2, _⟩ := hok r hr
  unfold PackedRow.bit
  rw [if_neg (by omega), List.getD_eq_getElem?_getD, List.getElem?_eq_none (by omega)]
  simp

/-! ## The hypotheses are met -/

example : outCls.Wf ∧ outCls.bitCount ≤ 2 ^ 32 ∧ outCls.bitCount < 32 * (layout outCls.bitCount).2.1 + 8 * (layout outCls.bitCount).2.2 := by
  refine ⟨?_, by decide +kernel, by decide +kernel⟩
  simp [outCls, Cls.Wf, Cls.names]

/-- A class of 23 bits: records 1, 0, 1 of a batch of two; a batch after another; a packed record with a padding bit set; `Packed.default`. -/
example :
    Inst.select [1, 0, 1] outCls outInst = .leaf "a" [4, 5, 6, 1, 2, 3, 4, 5, 6] (.leaf "b" [5, 2, 0, 7, 5, 2] (.leaf "f" [-1, 200, -1] .nil)) ∧
    packed packXla outCls 3 (Inst.select [1, 0, 1] outCls outInst) = (packed packXla outCls 2 outInst).bind (fun p => [1, 0, 1].mapM fun i => p[i]?) ∧
    (packed packXla outCls 3 (Inst.select [1, 0, 1] outCls outInst)).isSome = true ∧
    packed packXla outCls 4 (Inst.append outInst outInst) = (packed packXla outCls 2 outInst).map (fun p => p ++ p) ∧
    unpacked outCls [⟨[0x800005], []⟩] = unpacked outCls [⟨[0x000005], []⟩] ∧
    unpacked outCls [⟨[0x800005], []⟩] = some (.leaf "a" [5, 0, 0] (.leaf "b" [0, 0] (.leaf "f" [0] .nil))) ∧
    unpacked outCls (packedDefault outCls 2) = some (outCls.zeros 2) := by decide +kernel

/-- The default of a class with another fill value (here all ones in one field) is not what `Packed.default` unpacks to: the two defaults differ. -/
example : (packed packXla outCls 1 (.leaf "a" [0, 0, 0] (.leaf "b" [7, 7] (.leaf "f" [0] .nil)))) ≠ some (packedDefault outCls 1) := by decide +kernel

end Agg
