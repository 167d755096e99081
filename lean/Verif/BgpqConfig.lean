import Verif.BgpqConfigModel
import Verif.BgpqNaN

/-!
# C82: the settings do not change what a queue does
-/

namespace Bgpq

open MergeModel BgpqSpec

/-! ## Packing of values -/

section Pack

variable {E : Type v}

/-- A value whose fields have the given numbers of entries. -/
def Fits (sizes : List Nat) (v : List (List E)) : Prop := v.map List.length = sizes

theorem slices_length {V : Type v} (row : List V) (ss : List Nat) (start : Nat) : (slices row start ss).length = ss.length := by
  induction ss generalizing start with
  | nil => rfl
  | cons s ss ih => simp [slices, ih]

theorem packRow_length (zero : E) (mode : PackMode) (row : List E) : (packRow zero mode row.length row).length = pieceCount mode row.length := by
  cases mode <;> simp [packRow, pieceCount, slices_length]

/-- Packing a value and restoring it gives the value, in every combination of modes. -/
theorem restore_pack_val (zero : E) (modes : List PackMode) (sizes : List Nat) (hm : modes.length = sizes.length) (v : List (List E)) (hv : Fits sizes v) :
    restoreVal (modes.zip sizes) (packVal zero (modes.zip sizes) v) = v := by
  induction v generalizing modes sizes with
  | nil =>
    cases hv
    cases modes
    · rfl
    · simp at hm
  | cons r v ih =>
    cases sizes with
    | nil => simp [Fits] at hv
    | cons s sizes =>
      cases modes with
      | nil => simp at hm
      | cons mode modes =>
        simp only [Fits, List.map_cons, List.cons.injEq] at hv
        obtain ⟨rfl, hv⟩ := hv
        have hm' : modes.length = sizes.length := by simpa using hm
        have hl := packRow_length zero mode r
        unfold packVal
        simp only [List.zip_cons_cons, List.flatMap_cons, restoreVal]
        rw [List.take_left' hl, List.drop_left' hl, restore_pack_row]
        exact congrArg _ (ih modes sizes hm' hv)

end Pack

/-! ## Strategies -/

section Merge

variable {K : Type u} [KeyLE K] {E : Type v}

theorem map_some_inj {V : Type v} {l l' : List V} (h : l.map some = l'.map some) : l = l' := by
  have := congrArg (List.filterMap id) h
  simpa [List.filterMap_map] using this

/-- The index strategies: with a backend that returns the stable merge of the keys. -/
theorem gather_pairs {V : Type v} (d : V) (a b : List (K × V)) (m : List (K × Nat)) (concat : Bool)
    (hm : MergeSpec.IsStableMerge (a.map Prod.fst) (b.map Prod.fst) m) :
    (m.map Prod.fst).zip ((if concat then gatherSortedValuesConcat (a.map Prod.snd) (b.map Prod.snd) (m.map Prod.snd)
      else gatherSortedValues (a.map Prod.snd) (b.map Prod.snd) (m.map Prod.snd)).map fun v => v.getD d) = sortKeyVal (a ++ b) := by
  have hs := merge_sort_split_pairs (fun _ _ => m) a b hm
  have hidx : ∀ i ∈ m.map Prod.snd, i < (a.map Prod.snd).length + (b.map Prod.snd).length := by
    intro i hi
    obtain ⟨x, hx, rfl⟩ := List.mem_map.1 hi
    have := List.snd_lt_of_mem_zipIdx (hm.perm.mem_iff.1 hx)
    simpa using this
  have hg := gatherSortedValues_eq (a.map Prod.snd) (b.map Prod.snd) (m.map Prod.snd) hidx
  have hc : (if concat then gatherSortedValuesConcat (a.map Prod.snd) (b.map Prod.snd) (m.map Prod.snd)
      else gatherSortedValues (a.map Prod.snd) (b.map Prod.snd) (m.map Prod.snd)) = gatherSortedValues (a.map Prod.snd) (b.map Prod.snd) (m.map Prod.snd) := by
    cases concat
    · rfl
    · exact hg.2.trans hg.1.symm
  rw [hc]
  unfold mergeSortSplitWith at hs
  simp only [Prod.mk.injEq] at hs
  obtain ⟨⟨h1, h2⟩, h3, h4⟩ := hs
  have hk : m.map Prod.fst = (sortKeyVal (a ++ b)).map Prod.fst := by
    rw [← List.take_append_drop (a.map Prod.fst).length (m.map Prod.fst), h1, h3]
    simp [mergeSplit, ← List.map_append]
  have hv : gatherSortedValues (a.map Prod.snd) (b.map Prod.snd) (m.map Prod.snd) = (sortKeyVal (a ++ b)).map (some ∘ Prod.snd) := by
    rw [← List.take_append_drop (a.map Prod.fst).length (gatherSortedValues _ _ _), h2, h4]
    simp [mergeSplit, ← List.map_append]
  rw [hk, hv, List.map_map]
  generalize sortKeyVal (a ++ b) = s
  induction s with
  | nil => rfl
  | cons x s ih => simpa using ih

theorem sortKeyVal_map {P Q : Type v} (f : P → Q) (l : List (K × P)) :
    sortKeyVal (l.map fun x => (x.1, f x.2)) = (sortKeyVal l).map fun x => (x.1, f x.2) :=
  Jax.stableSort_map (le := keyLE) (le' := keyLE) (f := fun x : K × P => (x.1, f x.2)) (fun _ _ => rfl) l

theorem selectBlockSize_pos {py : Py} {env : Env} {dev : Device} {n bs : Nat} (h : selectBlockSize py env dev n = .ok bs) : 0 < bs := by
  unfold selectBlockSize parseBlockSizeOverride at h
  cases h1 : env "XTRUCTURE_BGPQ_MERGE_BLOCK_SIZE" with
  | none =>
    simp only [h1, bind, Except.bind, Except.ok.injEq] at h
    subst h
    by_cases h2 : dev ≠ .gpu
    · simp [h2]
    · simp only [h2, if_false]; split <;> decide
  | some v =>
    rw [h1] at h
    simp only at h
    by_cases h2 : py.lower (py.strip v) = "auto"
    · simp only [h2, if_true, bind, Except.bind, Except.ok.injEq] at h
      subst h
      by_cases h2 : dev ≠ .gpu
      · simp [h2]
      · simp only [h2, if_false]; split <;> decide
    · rw [if_neg h2] at h
      cases h3 : py.int v with
      | none => simp [h3, bind, Except.bind] at h
      | some k =>
        simp only [h3] at h
        by_cases h4 : k ≤ 0
        · simp [h4, bind, Except.bind] at h
        · simp only [h4, if_false, bind, Except.bind, Except.ok.injEq] at h
          omega

theorem kernelConfig_pos {py : Py} {env : Env} {dev : Device} {n bs : Nat} (h : kernelConfig py env dev n = .ok bs) : 0 < bs := by
  unfold kernelConfig at h
  cases h1 : selectBlockSize py env dev n with
  | error e => simp [h1, bind, Except.bind] at h
  | ok b =>
    cases h2 : parseUnrollMax py env with
    | error e => simp [h1, h2, bind, Except.bind] at h
    | ok u =>
      cases h3 : parseTritonParam py env "XTRUCTURE_BGPQ_MERGE_NUM_WARPS" with
      | error e => simp [h1, h2, h3, bind, Except.bind] at h
      | ok w =>
        cases h4 : parseTritonParam py env "XTRUCTURE_BGPQ_MERGE_NUM_STAGES" with
        | error e => simp [h1, h2, h3, h4, bind, Except.bind] at h
        | ok t =>
          simp [h1, h2, h3, h4, bind, Except.bind] at h
          exact h ▸ selectBlockSize_pos h1

theorem resolveKv_cases (py : Py) (env : Env) (dev : Device) (sizes : List Nat) (n m : Nat) :
    (∃ e, resolveKv py env dev sizes n m = .error e) ∨
    ∃ mode mx bs, parseValuePacking py env = .ok mode ∧ parseValueScalarMax py env = .ok mx ∧ kernelConfig py env dev (n + m) = .ok bs ∧ 0 < n ∧ 0 < m ∧
      (∀ s ∈ sizes, s = 0 → mode mx s = .pad) ∧ resolveKv py env dev sizes n m = .ok (.kv bs (sizes.map (mode mx))) := by
  unfold resolveKv
  cases parseValuePacking py env with
  | error e => exact Or.inl ⟨e, rfl⟩
  | ok mode =>
    cases parseValueScalarMax py env with
    | error e => exact Or.inl ⟨e, rfl⟩
    | ok mx =>
      cases kernelConfig py env dev (n + m) with
      | error e => exact Or.inl ⟨e, rfl⟩
      | ok bs =>
        simp only [bind, Except.bind]
        by_cases h5 : n = 0 ∨ m = 0
        · rw [if_pos h5]; exact Or.inl ⟨_, rfl⟩
        · rw [if_neg h5]
          by_cases h6 : ∃ s ∈ sizes, s = 0 ∧ mode mx s ≠ .pad
          · rw [if_pos h6]; exact Or.inl ⟨_, rfl⟩
          · rw [if_neg h6]
            refine Or.inr ⟨mode, mx, bs, rfl, rfl, rfl, by omega, by omega, ?_, rfl⟩
            intro s hs h0
            by_cases h : mode mx s = .pad
            · exact h
            · exact absurd ⟨s, hs, h0, h⟩ h6

theorem resolveIdx_cases (py : Py) (env : Env) (dev : Device) (kernel : Bool) (n m : Nat) :
    (∃ e, resolveIdx py env dev kernel n m = .error e) ∨
    (∃ c, kernel = false ∧ valueReorder py env = .ok c ∧ resolveIdx py env dev kernel n m = .ok (.idx none c)) ∨
    ∃ c bs, kernel = true ∧ valueReorder py env = .ok c ∧ kernelConfig py env dev (n + m) = .ok bs ∧ (n = 0 ∨ m = 0 ∨ dev = .gpu) ∧
      resolveIdx py env dev kernel n m = .ok (.idx (some bs) c) := by
  unfold resolveIdx
  cases kernel with
  | false =>
    cases valueReorder py env with
    | error e => exact Or.inl ⟨e, rfl⟩
    | ok c => exact Or.inr (Or.inl ⟨c, rfl, rfl, rfl⟩)
  | true =>
    cases kernelConfig py env dev (n + m) with
    | error e => exact Or.inl ⟨e, rfl⟩
    | ok bs =>
      simp only [bind, Except.bind, if_true]
      by_cases h : n ≠ 0 ∧ m ≠ 0 ∧ dev ≠ .gpu
      · rw [if_pos h]; exact Or.inl ⟨_, rfl⟩
      · rw [if_neg h]
        cases valueReorder py env with
        | error e => exact Or.inl ⟨e, rfl⟩
        | ok c =>
          refine Or.inr (Or.inr ⟨c, bs, trivial, rfl, rfl, ?_, rfl⟩)
          by_cases hn : n = 0
          · exact Or.inl hn
          · by_cases hm : m = 0
            · exact Or.inr (Or.inl hm)
            · by_cases hd : dev = .gpu
              · exact Or.inr (Or.inr hd)
              · exact absurd ⟨hn, hm, hd⟩ h

/-- What an accepted setting can lead to. -/
theorem resolve_ok {py : Py} {env : Env} {dev : Device} {site : Site} {sizes : List Nat} {n m : Nat} {s : Strat}
    (h : resolve py env dev site sizes n m = .ok s) :
    (∃ bs modes, s = .kv bs modes ∧ 0 < bs ∧ 0 < n ∧ 0 < m ∧ modes.length = sizes.length) ∨ (∃ concat, s = .idx none concat) ∨
      ∃ bs concat, s = .idx (some bs) concat ∧ 0 < bs := by
  unfold resolve at h
  cases h1 : mergeArrayBackend py env dev with
  | error e => simp [h1, bind, Except.bind] at h
  | ok kernel =>
    simp only [h1, bind, Except.bind] at h
    generalize useKvBackend py env _ n = u at h
    cases u with
    | error e => simp at h
    | ok kv =>
      simp only at h
      by_cases hk : kv = true ∧ dev = .gpu
      · rw [if_pos hk] at h
        rcases resolveKv_cases py env dev sizes n m with ⟨e, h2⟩ | ⟨mode, mx, bs, _, _, h3, h4, h5, _, h6⟩
        · rw [h2] at h; cases h
        · rw [h6] at h
          cases h
          exact Or.inl ⟨bs, _, rfl, kernelConfig_pos h3, h4, h5, by simp⟩
      · rw [if_neg hk] at h
        rcases resolveIdx_cases py env dev kernel n m with ⟨e, h2⟩ | ⟨c, _, _, h2⟩ | ⟨c, bs, _, _, h3, _, h2⟩
        · rw [h2] at h; cases h
        · rw [h2] at h; cases h; exact Or.inr (Or.inl ⟨c, rfl⟩)
        · rw [h2] at h; cases h; exact Or.inr (Or.inr ⟨bs, c, rfl, kernelConfig_pos h3⟩)

/-- Every accepted strategy merges sorted blocks like sorting does. -/
theorem strat_merge_eq (minV maxV : K) (zero : E) {py : Py} {env : Env} {dev : Device} {site : Site} {sizes : List Nat} {s : Strat}
    (a b : List (K × List (List E))) (hr : resolve py env dev site sizes a.length b.length = .ok s) (ha : MergeSpec.Sorted (a.map Prod.fst))
    (hb : MergeSpec.Sorted (b.map Prod.fst)) (hfa : ∀ x ∈ a, Fits sizes x.2) (hfb : ∀ x ∈ b, Fits sizes x.2) :
    s.merge minV maxV zero sizes a b = sortKeyVal (a ++ b) := by
  rcases resolve_ok hr with ⟨bs, modes, rfl, hbs, hn, hm, hl⟩ | ⟨c, rfl⟩ | ⟨bs, c, rfl, hbs⟩
  · unfold Strat.merge
    simp only
    have hA : a.map Prod.fst = (a.map fun x => (x.1, packVal zero (modes.zip sizes) x.2)).map Prod.fst := by simp
    have hB : b.map Prod.fst = (b.map fun x => (x.1, packVal zero (modes.zip sizes) x.2)).map Prod.fst := by simp
    have hA2 : (a.map fun x => packVal zero (modes.zip sizes) x.2) = (a.map fun x => (x.1, packVal zero (modes.zip sizes) x.2)).map Prod.snd := by simp
    have hB2 : (b.map fun x => packVal zero (modes.zip sizes) x.2) = (b.map fun x => (x.1, packVal zero (modes.zip sizes) x.2)).map Prod.snd := by simp
    rw [hA2, hB2, hA, hB, merge_kv_eq minV maxV bs hbs _ _ (hA ▸ ha) (hB ▸ hb) (by
      intro h; rw [List.map_eq_nil_iff] at h; subst h; simp at hn) (by
      intro h; rw [List.map_eq_nil_iff] at h; subst h; simp at hm)]
    rw [show ∀ x y : List (K × List (List E)), (mergeSplit x y).1 ++ (mergeSplit x y).2 = sortKeyVal (x ++ y) from
      fun x y => by simp [mergeSplit], ← List.map_append, sortKeyVal_map, List.map_map]
    refine (List.map_congr_left ?_).trans (List.map_id _)
    intro x hx
    have hx' := (sortKeyVal_perm _).mem_iff.1 hx
    have hf : Fits sizes x.2 := by
      rcases List.mem_append.1 hx' with h | h
      · exact hfa x h
      · exact hfb x h
    show (x.1, restoreVal (modes.zip sizes) (packVal zero (modes.zip sizes) x.2)) = x
    rw [restore_pack_val zero modes sizes hl x.2 hf]
  · exact gather_pairs [] a b _ c (mergeSortSplitIdx_stable _ _)
  · have := merge_backends_agree minV maxV bs hbs (a.map Prod.fst) (b.map Prod.fst) ha hb
    exact gather_pairs [] a b _ c (this.2.2 ▸ this.1)

end Merge

/-! ## Queues -/

section Queue

variable {K : Type u} [KeyTop K] {E : Type v}

theorem merge_like_sort (c : Setup K E) (site : Site) (n m : Nat) {s : Strat} (h : c.resolve site n m = .ok s) :
    MergesLikeSort (c.merge site) n m (Fits c.sizes) := by
  intro a b ha hb
  have hr : resolve c.py c.env c.dev site c.sizes a.length b.length = .ok s := by rw [ha.len, hb.len]; exact h
  unfold Setup.merge cfgMerge
  rw [hr]
  exact strat_merge_eq c.minV c.maxV c.zero a b hr (List.pairwise_map.2 ha.sorted) (List.pairwise_map.2 hb.sorted) ha.vals hb.vals

/-- Does the code accept the settings for an operation on a queue with batches of `n`? -/
def Setup.Accepts (c : Setup K E) (n : Nat) (op : Op K (List (List E))) : Prop := c.trace n op = .ok ()

/-- Blocks have `batch_size` entries, and their values the fields of the value class. -/
def FitsOp (sizes : List Nat) (n : Nat) : Op K (List (List E)) → Prop
  | .insert block => block.length = n ∧ ∀ x ∈ block, Fits sizes x.2
  | .deleteMins => True

theorem trace_insert {c : Setup K E} {n : Nat} {block : List (K × List (List E))} (h : c.Accepts n (.insert block)) :
    (∃ s, c.resolve .sortsplit n n = .ok s) ∧ ∃ s, c.resolve .buffer n (n - 1) = .ok s := by
  unfold Setup.Accepts Setup.trace at h
  cases h1 : c.resolve .sortsplit n n with
  | error e => simp [h1, bind, Except.bind] at h
  | ok s =>
    cases h2 : c.resolve .buffer n (n - 1) with
    | error e => simp [h1, h2, bind, Except.bind] at h
    | ok t => exact ⟨⟨s, rfl⟩, ⟨t, rfl⟩⟩

theorem trace_delete {c : Setup K E} {n : Nat} (h : c.Accepts n .deleteMins) :
    (∃ s, c.resolve .sortsplit n n = .ok s) ∧ ∃ s, c.resolve .sortsplit n (n - 1) = .ok s := by
  unfold Setup.Accepts Setup.trace at h
  cases h1 : c.resolve .sortsplit n (n - 1) with
  | error e => simp [h1, bind, Except.bind] at h
  | ok s =>
    cases h2 : c.resolve .sortsplit n n with
    | error e => simp [h1, h2, bind, Except.bind] at h
    | ok t => exact ⟨⟨t, rfl⟩, ⟨s, rfl⟩⟩

theorem step_settings (c : Setup K E) {h : Heap K (List (List E))} (hg : HGood (Fits c.sizes) h) {op : Op K (List (List E))}
    (ha : c.Accepts h.batchSize op) (hf : FitsOp c.sizes h.batchSize op) :
    stepCfg c h op = .ok (step h op) ∧ ∀ x, step h op = some x → HGood (Fits c.sizes) x.1 ∧ x.1.batchSize = h.batchSize := by
  unfold stepCfg
  rw [show c.trace h.batchSize op = .ok () from ha]
  cases op with
  | insert block =>
    obtain ⟨⟨s, hs⟩, ⟨t, ht⟩⟩ := trace_insert ha
    obtain ⟨e, g1, g2⟩ := insert_agree (merge_like_sort c _ _ _ hs) (merge_like_sort c _ _ _ ht) hg hf.1 hf.2
    simp only [e]
    refine ⟨rfl, ?_⟩
    intro x hx
    cases hx
    exact ⟨g1, g2⟩
  | deleteMins =>
    obtain ⟨⟨s, hs⟩, ⟨t, ht⟩⟩ := trace_delete ha
    obtain ⟨e, g⟩ := delete_agree (merge_like_sort c _ _ _ hs) (merge_like_sort c _ _ _ ht) hg
    simp only [e]
    refine ⟨rfl, ?_⟩
    intro x hx
    unfold step at hx
    rw [Option.map_eq_some_iff] at hx
    obtain ⟨⟨h', r⟩, h1, rfl⟩ := hx
    exact g h' r h1

theorem run_settings (c : Setup K E) (ops : List (Op K (List (List E)))) {h : Heap K (List (List E))} (hg : HGood (Fits c.sizes) h)
    (ha : ∀ op ∈ ops, c.Accepts h.batchSize op) (hf : ∀ op ∈ ops, FitsOp c.sizes h.batchSize op) : runCfg c h ops = .ok (run h ops) := by
  induction ops generalizing h with
  | nil => rfl
  | cons op ops ih =>
    obtain ⟨e, g⟩ := step_settings c hg (ha op (by simp)) (hf op (by simp))
    unfold runCfg run
    rw [e]
    cases hs : step h op with
    | none => rfl
    | some x =>
      obtain ⟨g1, g2⟩ := g x hs
      simp only
      rw [ih g1 (fun o ho => by rw [g2]; exact ha o (by simp [ho])) (fun o ho => by rw [g2]; exact hf o (by simp [ho]))]
      rfl

/-- **C82.**  Whatever the environment variables, the device, the Python string functions, the sentinels of the kernels and the padding constant: if the code
accepts the settings for the operations of a history, the history gives exactly the results (contents, values, sizes, order among equal keys) of the queue that
merges by sorting.  No assumption on the keys but a total preorder with a greatest element. -/
theorem queue_settings (c : Setup K E) (total batch : Nat) (ht : 0 < total) (hb : 0 < batch) (dflt : List (List E)) (hd : Fits c.sizes dflt)
    (ops : List (Op K (List (List E)))) (ha : ∀ op ∈ ops, c.Accepts batch op) (hf : ∀ op ∈ ops, FitsOp c.sizes batch op) :
    runCfg c (build total batch dflt) ops = .ok (run (build total batch dflt) ops) :=
  run_settings c ops (hgood_build total batch ht hb dflt hd) ha hf

/-- An operation whose settings are not accepted raises, and does nothing. -/
theorem settings_raise (c : Setup K E) (h : Heap K (List (List E))) (op : Op K (List (List E))) (ha : ¬ c.Accepts h.batchSize op) :
    ∃ e, stepCfg c h op = .error e := by
  unfold Setup.Accepts at ha
  unfold stepCfg
  cases ht : c.trace h.batchSize op with
  | error e => exact ⟨e, rfl⟩
  | ok u => exact absurd ht ha

end Queue

/-! ## Which settings are accepted -/

section Spec

variable (py : Py) (env : Env)

/-- `int(v)` succeeds with a result in `P`. -/
def IntegerIn (v : String) (P : Int → Prop) : Prop := ∃ k, py.int v = some k ∧ P k

/-- If the variable is set, its value is one of the words (without case and blanks) or an integer in `P`. -/
def WordOrInt (name : String) (words : List String) (P : Int → Prop) : Prop :=
  ∀ v, env name = some v → py.lower (py.strip v) ∈ words ∨ IntegerIn py v P

/-- The settings of the kernels. -/
structure KernelSettings : Prop where
  block : WordOrInt py env "XTRUCTURE_BGPQ_MERGE_BLOCK_SIZE" ["auto"] (0 < ·)
  unroll : ∀ v, env "XTRUCTURE_BGPQ_MERGE_UNROLL_MAX" = some v → IntegerIn py v (0 ≤ ·)
  warps : WordOrInt py env "XTRUCTURE_BGPQ_MERGE_NUM_WARPS" ["auto", "none", ""] (0 < ·)
  stages : WordOrInt py env "XTRUCTURE_BGPQ_MERGE_NUM_STAGES" ["auto", "none", ""] (0 < ·)

theorem blockOverride_ok : (∃ b, parseBlockSizeOverride py env = .ok b) ↔ WordOrInt py env "XTRUCTURE_BGPQ_MERGE_BLOCK_SIZE" ["auto"] (0 < ·) := by
  unfold parseBlockSizeOverride WordOrInt IntegerIn
  cases env "XTRUCTURE_BGPQ_MERGE_BLOCK_SIZE" with
  | none => simp
  | some v =>
    simp only [Option.some.injEq, forall_eq', List.mem_singleton]
    by_cases h : py.lower (py.strip v) = "auto"
    · simp [h]
    · simp only [h, if_false, false_or]
      cases py.int v with
      | none => simp
      | some k =>
        by_cases hk : k ≤ 0
        · simp [hk]
        · simp [hk]; omega

theorem unrollMax_ok : (∃ b, parseUnrollMax py env = .ok b) ↔ ∀ v, env "XTRUCTURE_BGPQ_MERGE_UNROLL_MAX" = some v → IntegerIn py v (0 ≤ ·) := by
  unfold parseUnrollMax IntegerIn
  cases env "XTRUCTURE_BGPQ_MERGE_UNROLL_MAX" with
  | none => simp
  | some v =>
    simp only [Option.some.injEq, forall_eq']
    cases py.int v with
    | none => simp
    | some k =>
      by_cases hk : k < 0
      · simp [hk]
      · simp [hk]; omega

theorem tritonParam_ok (name : String) : (∃ b, parseTritonParam py env name = .ok b) ↔ WordOrInt py env name ["auto", "none", ""] (0 < ·) := by
  unfold parseTritonParam WordOrInt IntegerIn
  cases env name with
  | none => simp
  | some v =>
    simp only [Option.some.injEq, forall_eq']
    by_cases h : py.lower (py.strip v) ∈ ["auto", "none", ""]
    · simp only [h, if_true]; simp
    · simp only [h, if_false, false_or]
      cases py.int v with
      | none => simp
      | some k =>
        by_cases hk : k ≤ 0
        · simp [hk]
        · simp [hk]; omega

theorem kernelConfig_ok (dev : Device) (n : Nat) : (∃ b, kernelConfig py env dev n = .ok b) ↔ KernelSettings py env := by
  have h1 := blockOverride_ok py env
  have h2 := unrollMax_ok py env
  have h3 := tritonParam_ok py env "XTRUCTURE_BGPQ_MERGE_NUM_WARPS"
  have h4 := tritonParam_ok py env "XTRUCTURE_BGPQ_MERGE_NUM_STAGES"
  rw [show KernelSettings py env ↔ _ ∧ _ ∧ _ ∧ _ from ⟨fun h => ⟨h.1, h.2, h.3, h.4⟩, fun h => ⟨h.1, h.2.1, h.2.2.1, h.2.2.2⟩⟩, ← h1, ← h2, ← h3, ← h4]
  unfold kernelConfig selectBlockSize
  cases parseBlockSizeOverride py env with
  | error e => simp [bind, Except.bind]
  | ok b =>
    cases parseUnrollMax py env with
    | error e => cases b <;> simp [bind, Except.bind]
    | ok u =>
      cases parseTritonParam py env "XTRUCTURE_BGPQ_MERGE_NUM_WARPS" with
      | error e => cases b <;> simp [bind, Except.bind]
      | ok w =>
        cases parseTritonParam py env "XTRUCTURE_BGPQ_MERGE_NUM_STAGES" with
        | error e => cases b <;> simp [bind, Except.bind]
        | ok t => cases b <;> simp [bind, Except.bind]

/-- The variable of a merge site. -/
def siteName : Site → String
  | .sortsplit => "XTRUCTURE_BGPQ_MERGE_VALUE_BACKEND_SORTSPLIT"
  | .buffer => "XTRUCTURE_BGPQ_MERGE_VALUE_BACKEND_BUFFER"

/-- The word chosen for a merge site: the variable of the site if it is set (even to nothing), else the common one. -/
def siteWord (site : Site) : String :=
  py.lower (py.strip (match env (siteName site) with
    | some v => v
    | none => (env "XTRUCTURE_BGPQ_MERGE_VALUE_BACKEND").getD ""))

def autoMin : String := (env "XTRUCTURE_BGPQ_MERGE_VALUE_AUTO_MIN_BATCH").getD "0"

/-- The key-value kernel is asked for. -/
def WantsKv (site : Site) (n : Nat) : Prop :=
  siteWord py env site ∈ ["on", "true", "parallel", "pallas", "kv", "kv_parallel"] ∨
  siteWord py env site ∈ ["auto", "kv_auto"] ∧ IntegerIn py (autoMin env) fun t => 0 < t ∧ t ≤ n

def KvValid (site : Site) : Prop :=
  siteWord py env site ∈ ["", "off", "0", "false", "none", "on", "true", "parallel", "pallas", "kv", "kv_parallel"] ∨
  siteWord py env site ∈ ["auto", "kv_auto"] ∧ IntegerIn py (autoMin env) fun _ => True

def packingWord : String := py.lower (py.strip ((env "XTRUCTURE_BGPQ_MERGE_VALUE_PACKING").getD "auto"))
def backendWord (dev : Device) : String := py.lower ((env "XTRUCTURE_BGPQ_MERGE_BACKEND").getD (if dev = .gpu then "parallel" else "sort"))
def reorderWord : String := py.lower (py.strip ((env "XTRUCTURE_BGPQ_VALUE_REORDER").getD "gather"))

/-- The settings a merge of arrays of lengths `n` and `m` accepts. -/
structure SettingsOk (dev : Device) (site : Site) (sizes : List Nat) (n m : Nat) : Prop where
  backend : backendWord py env dev ∈ ["sort", "xla", "parallel", "pallas"]
  kv : KvValid py env site
  /-- Key-value kernel (GPU only): arrays that are not empty, and no field of size 0 unless fields are padded. -/
  kvKernel : WantsKv py env site n → dev = .gpu → packingWord py env ∈ ["auto", "pad", "scalar", "shard"] ∧
    (∀ v, env "XTRUCTURE_BGPQ_MERGE_VALUE_SCALAR_MAX" = some v → IntegerIn py v (0 < ·)) ∧ KernelSettings py env ∧ 0 < n ∧ 0 < m ∧
    (0 ∈ sizes → packingWord py env = "pad")
  /-- Otherwise: the index kernel needs a GPU unless an array is empty. -/
  idx : ¬ (WantsKv py env site n ∧ dev = .gpu) → (backendWord py env dev ∈ ["parallel", "pallas"] → KernelSettings py env ∧ (n = 0 ∨ m = 0 ∨ dev = .gpu)) ∧
    reorderWord py env ∈ ["gather", "direct", "concat", "concat_gather"]

theorem useKv_cases (site : Site) (n : Nat) :
    let r := useKvBackend py env (match env site.var with
      | some v => v
      | none => (env "XTRUCTURE_BGPQ_MERGE_VALUE_BACKEND").getD "") n
    (r = .ok true ∧ KvValid py env site ∧ WantsKv py env site n) ∨ (r = .ok false ∧ KvValid py env site ∧ ¬ WantsKv py env site n) ∨
      (r = .error .value ∧ ¬ KvValid py env site) := by
  intro r
  have hr : r = (if siteWord py env site ∈ ["", "off", "0", "false", "none"] then .ok false
    else if siteWord py env site ∈ ["on", "true", "parallel", "pallas", "kv", "kv_parallel"] then .ok true
    else if siteWord py env site ∈ ["auto", "kv_auto"] then
      match py.int (autoMin env) with
      | none => .error .value
      | some t => .ok (decide (t > 0) && decide ((n : Int) ≥ t))
    else .error .value) := by cases site <;> rfl
  unfold KvValid WantsKv IntegerIn
  rw [hr]
  generalize siteWord py env site = w
  by_cases h1 : w ∈ ["", "off", "0", "false", "none"]
  · rw [if_pos h1]
    simp only [List.mem_cons, List.not_mem_nil, or_false] at h1
    refine Or.inr (Or.inl ⟨rfl, ?_, ?_⟩)
    · left; rcases h1 with rfl | rfl | rfl | rfl | rfl <;> simp
    · rcases h1 with rfl | rfl | rfl | rfl | rfl <;> simp
  · rw [if_neg h1]
    by_cases h2 : w ∈ ["on", "true", "parallel", "pallas", "kv", "kv_parallel"]
    · rw [if_pos h2]
      refine Or.inl ⟨rfl, Or.inl ?_, Or.inl h2⟩
      simp only [List.mem_cons, List.not_mem_nil, or_false] at h2 ⊢
      rcases h2 with rfl | rfl | rfl | rfl | rfl | rfl <;> simp
    · rw [if_neg h2]
      have h12 : w ∉ ["", "off", "0", "false", "none", "on", "true", "parallel", "pallas", "kv", "kv_parallel"] := by
        intro h
        rw [show ["", "off", "0", "false", "none", "on", "true", "parallel", "pallas", "kv", "kv_parallel"] =
          ["", "off", "0", "false", "none"] ++ ["on", "true", "parallel", "pallas", "kv", "kv_parallel"] from rfl, List.mem_append] at h
        exact h.elim h1 h2
      by_cases h3 : w ∈ ["auto", "kv_auto"]
      · rw [if_pos h3]
        cases py.int (autoMin env) with
        | none => exact Or.inr (Or.inr ⟨rfl, by simp [h12]⟩)
        | some t =>
          by_cases h4 : 0 < t ∧ t ≤ (n : Int)
          · refine Or.inl ⟨by simp [h4.1, h4.2], Or.inr ⟨h3, t, rfl, trivial⟩, Or.inr ⟨h3, t, rfl, h4⟩⟩
          · refine Or.inr (Or.inl ⟨?_, Or.inr ⟨h3, t, rfl, trivial⟩, ?_⟩)
            · simp only [Except.ok.injEq, Bool.and_eq_false_imp, decide_eq_true_eq, decide_eq_false_iff_not]
              intro h5 h6; exact h4 ⟨h5, h6⟩
            · rintro (h | ⟨_, k, hk, h⟩)
              · exact h2 h
              · cases hk; exact h4 h
      · rw [if_neg h3]
        exact Or.inr (Or.inr ⟨rfl, by simp only [h12, h3, false_and, or_self, not_false_iff]⟩)

/-- The settings a merge accepts are exactly the documented ones. -/
theorem resolve_ok_iff (dev : Device) (site : Site) (sizes : List Nat) (n m : Nat) :
    (∃ s, resolve py env dev site sizes n m = .ok s) ↔ SettingsOk py env dev site sizes n m := by
  have hb : (∃ k, mergeArrayBackend py env dev = .ok k ∧ backendWord py env dev ∈ ["sort", "xla", "parallel", "pallas"] ∧
        (k = true ↔ backendWord py env dev ∈ ["parallel", "pallas"])) ∨
      (mergeArrayBackend py env dev = .error .value ∧ backendWord py env dev ∉ ["sort", "xla", "parallel", "pallas"]) := by
    have : mergeArrayBackend py env dev = if backendWord py env dev ∈ ["sort", "xla"] then .ok false
      else if backendWord py env dev ∈ ["parallel", "pallas"] then .ok true else .error .value := rfl
    rw [this, show ["sort", "xla", "parallel", "pallas"] = ["sort", "xla"] ++ ["parallel", "pallas"] from rfl, List.mem_append]
    by_cases h1 : backendWord py env dev ∈ ["sort", "xla"]
    · refine Or.inl ⟨false, if_pos h1, Or.inl h1, ?_⟩
      simp only [List.mem_cons, List.not_mem_nil, or_false] at h1
      rcases h1 with h | h <;> simp [h]
    · rw [if_neg h1]
      by_cases h2 : backendWord py env dev ∈ ["parallel", "pallas"]
      · exact Or.inl ⟨true, if_pos h2, Or.inr h2, by simp only [h2]⟩
      · exact Or.inr ⟨if_neg h2, fun h => h.elim h1 h2⟩
  have hx : (∃ c, valueReorder py env = .ok c) ↔ reorderWord py env ∈ ["gather", "direct", "concat", "concat_gather"] := by
    have : valueReorder py env = if reorderWord py env ∈ ["concat", "concat_gather"] then .ok true
      else if reorderWord py env ∈ ["gather", "direct"] then .ok false else .error .value := rfl
    rw [this]
    by_cases h1 : reorderWord py env ∈ ["concat", "concat_gather"]
    · rw [if_pos h1]
      refine iff_of_true ⟨_, rfl⟩ ?_
      rw [show ["gather", "direct", "concat", "concat_gather"] = ["gather", "direct"] ++ ["concat", "concat_gather"] from rfl, List.mem_append]
      exact Or.inr h1
    · rw [if_neg h1]
      by_cases h2 : reorderWord py env ∈ ["gather", "direct"]
      · rw [if_pos h2]
        refine iff_of_true ⟨_, rfl⟩ ?_
        rw [show ["gather", "direct", "concat", "concat_gather"] = ["gather", "direct"] ++ ["concat", "concat_gather"] from rfl, List.mem_append]
        exact Or.inl h2
      · rw [if_neg h2]
        refine iff_of_false (fun h => (by obtain ⟨_, h⟩ := h; cases h)) ?_
        rw [show ["gather", "direct", "concat", "concat_gather"] = ["gather", "direct"] ++ ["concat", "concat_gather"] from rfl, List.mem_append]
        exact fun h => h.elim h2 h1
  have hmx : (∃ b, parseValueScalarMax py env = .ok b) ↔ ∀ v, env "XTRUCTURE_BGPQ_MERGE_VALUE_SCALAR_MAX" = some v → IntegerIn py v (0 < ·) := by
    unfold parseValueScalarMax IntegerIn
    cases env "XTRUCTURE_BGPQ_MERGE_VALUE_SCALAR_MAX" with
    | none => simp
    | some v =>
      simp only [Option.some.injEq, forall_eq']
      cases py.int v with
      | none => simp
      | some k =>
        by_cases hk : k ≤ 0
        · simp [hk]
        · simp [hk]; omega
  have hpk : (∃ f, parseValuePacking py env = .ok f ∧ packingWord py env ∈ ["auto", "pad", "scalar", "shard"] ∧
      ∀ mx, (f mx 0 = .pad ↔ packingWord py env = "pad")) ∨
      (parseValuePacking py env = .error .value ∧ packingWord py env ∉ ["auto", "pad", "scalar", "shard"]) := by
    have : parseValuePacking py env = if packingWord py env = "auto" then .ok autoMode else if packingWord py env = "pad" then .ok fun _ _ => .pad
      else if packingWord py env = "scalar" then .ok fun _ _ => .scalar else if packingWord py env = "shard" then .ok fun _ _ => .shard else .error .value := rfl
    rw [this]
    by_cases h1 : packingWord py env = "auto"
    · rw [if_pos h1]
      exact Or.inl ⟨_, rfl, by simp [h1], fun mx => by simp [h1, autoMode]⟩
    · rw [if_neg h1]
      by_cases h2 : packingWord py env = "pad"
      · rw [if_pos h2]
        exact Or.inl ⟨_, rfl, by simp [h2], fun mx => by simp [h2]⟩
      · rw [if_neg h2]
        by_cases h3 : packingWord py env = "scalar"
        · rw [if_pos h3]
          exact Or.inl ⟨_, rfl, by simp [h3], fun mx => by simp [h3]⟩
        · rw [if_neg h3]
          by_cases h4 : packingWord py env = "shard"
          · rw [if_pos h4]
            exact Or.inl ⟨_, rfl, by simp [h4], fun mx => by simp [h4]⟩
          · rw [if_neg h4]
            exact Or.inr ⟨rfl, by simp [h1, h2, h3, h4]⟩
  have hkc := kernelConfig_ok py env dev (n + m)
  have hKv : (∃ s, resolveKv py env dev sizes n m = .ok s) ↔ packingWord py env ∈ ["auto", "pad", "scalar", "shard"] ∧
      (∀ v, env "XTRUCTURE_BGPQ_MERGE_VALUE_SCALAR_MAX" = some v → IntegerIn py v (0 < ·)) ∧ KernelSettings py env ∧ 0 < n ∧ 0 < m ∧
      (0 ∈ sizes → packingWord py env = "pad") := by
    rw [← hmx, ← hkc]
    rcases hpk with ⟨f, hf, hw, hp⟩ | ⟨hf, hw⟩
    · unfold resolveKv
      rw [hf]
      cases parseValueScalarMax py env with
      | error e => simp [bind, Except.bind]
      | ok mx =>
        cases kernelConfig py env dev (n + m) with
        | error e => simp [bind, Except.bind]
        | ok bs =>
          simp only [bind, Except.bind]
          by_cases h5 : n = 0 ∨ m = 0
          · rw [if_pos h5]
            refine iff_of_false (fun ⟨_, h⟩ => by cases h) ?_
            rintro ⟨_, _, _, h1, h2, _⟩
            omega
          · rw [if_neg h5]
            by_cases h6 : ∃ s ∈ sizes, s = 0 ∧ f mx s ≠ .pad
            · rw [if_pos h6]
              refine iff_of_false (fun ⟨_, h⟩ => by cases h) ?_
              rintro ⟨_, _, _, _, _, h⟩
              obtain ⟨s, hs, rfl, h7⟩ := h6
              exact h7 ((hp mx).2 (h hs))
            · rw [if_neg h6]
              refine iff_of_true ⟨_, rfl⟩ ⟨hw, ⟨_, rfl⟩, ⟨_, rfl⟩, by omega, by omega, ?_⟩
              intro h0
              by_cases h : f mx 0 = .pad
              · exact (hp mx).1 h
              · exact absurd ⟨0, h0, rfl, h⟩ h6
    · refine iff_of_false ?_ (fun h => hw h.1)
      rintro ⟨s, h⟩
      unfold resolveKv at h
      rw [hf] at h
      cases h
  have hIdx : ∀ kernel, (∃ s, resolveIdx py env dev kernel n m = .ok s) ↔
      (kernel = true → KernelSettings py env ∧ (n = 0 ∨ m = 0 ∨ dev = .gpu)) ∧ reorderWord py env ∈ ["gather", "direct", "concat", "concat_gather"] := by
    intro kernel
    rw [← hx, ← hkc]
    constructor
    · rintro ⟨s, h⟩
      rcases resolveIdx_cases py env dev kernel n m with ⟨e, h2⟩ | ⟨c, rfl, h3, h2⟩ | ⟨c, bs, rfl, h3, h4, h5, h2⟩
      · rw [h2] at h; cases h
      · exact ⟨fun h => (by cases h), ⟨c, h3⟩⟩
      · exact ⟨fun _ => ⟨⟨bs, h4⟩, h5⟩, ⟨c, h3⟩⟩
    · rintro ⟨h1, ⟨c, h2⟩⟩
      unfold resolveIdx
      cases kernel with
      | false => rw [h2]; exact ⟨_, rfl⟩
      | true =>
        obtain ⟨⟨bs, h3⟩, h4⟩ := h1 rfl
        rw [h2, h3]
        simp only [bind, Except.bind, if_true]
        rw [if_neg (by rintro ⟨a, b, d⟩; exact h4.elim a fun h => h.elim b d)]
        exact ⟨_, rfl⟩
  have hkv := useKv_cases py env site n
  simp only at hkv
  unfold resolve
  simp only [bind, Except.bind]
  rcases hb with ⟨k, hb1, hb2, hb3⟩ | ⟨hb1, hb2⟩
  rotate_left
  · rw [hb1]
    exact iff_of_false (fun ⟨_, h⟩ => by cases h) (fun h => hb2 h.backend)
  rw [hb1]
  simp only
  have hidx : KvValid py env site → ¬ (WantsKv py env site n ∧ dev = .gpu) → ((∃ s, resolveIdx py env dev k n m = .ok s) ↔ SettingsOk py env dev site sizes n m) := by
    intro hk hw
    rw [hIdx k, hb3]
    exact ⟨fun h => ⟨hb2, hk, fun h1 h2 => absurd ⟨h1, h2⟩ hw, fun _ => h⟩, fun h => h.idx hw⟩
  generalize useKvBackend py env _ n = u at hkv ⊢
  rcases hkv with ⟨rfl, hk1, hk2⟩ | ⟨rfl, hk1, hk2⟩ | ⟨rfl, hk1⟩
  · simp only
    by_cases hd : dev = .gpu
    · rw [if_pos ⟨trivial, hd⟩, hKv]
      exact ⟨fun h => ⟨hb2, hk1, fun _ _ => h, fun hn => absurd ⟨hk2, hd⟩ hn⟩, fun h => h.kvKernel hk2 hd⟩
    · rw [if_neg (fun h => hd h.2)]
      exact hidx hk1 (fun h => hd h.2)
  · simp only
    rw [if_neg (fun h => by cases h.1)]
    exact hidx hk1 (fun h => hk2 h.1)
  · exact iff_of_false (fun ⟨_, h⟩ => by cases h) (fun h => hk1 h.kv)

/-- Without any setting every merge is accepted, on every device and for every class of values (`py` must leave the default words alone). -/
theorem no_settings_accepted (hs : ∀ w ∈ ["", "sort", "parallel", "gather", "auto"], py.strip w = w ∧ py.lower w = w)
    (dev : Device) (site : Site) (sizes : List Nat) (n m : Nat) : ∃ s, resolve py (fun _ => none) dev site sizes n m = .ok s := by
  rw [resolve_ok_iff]
  have hsite : siteWord py (fun _ => none) site = "" := by
    have := hs "" (by simp)
    simp only [siteWord, Option.getD_none]
    rw [this.1, this.2]
  have hker : KernelSettings py fun _ => none :=
    ⟨fun v h => (by cases h), fun v h => (by cases h), fun v h => (by cases h), fun v h => (by cases h)⟩
  have hback : backendWord py (fun _ => none) dev = if dev = .gpu then "parallel" else "sort" := by
    unfold backendWord
    simp only [Option.getD_none]
    split
    · exact (hs "parallel" (by simp)).2
    · exact (hs "sort" (by simp)).2
  have hre : reorderWord py (fun _ => none) = "gather" := by
    have := hs "gather" (by simp)
    simp only [reorderWord, Option.getD_none]
    rw [this.1, this.2]
  have hw : ¬ WantsKv py (fun _ => none) site n := by
    unfold WantsKv
    rw [hsite]
    simp
  refine ⟨?_, ?_, fun h => absurd h hw, fun _ => ⟨fun h => ⟨hker, ?_⟩, by rw [hre]; simp⟩⟩
  · rw [hback]; split <;> simp
  · unfold KvValid; rw [hsite]; simp
  · rw [hback] at h
    by_cases hd : dev = .gpu
    · exact Or.inr (Or.inr hd)
    · rw [if_neg hd] at h; simp at h

end Spec

section Use

variable {K : Type u} [KeyTop K] {E : Type v}

/-- **C82.**  The settings accepted by `insert` and by `delete_mins` of a queue with batches of `n`. -/
theorem accepts_iff (c : Setup K E) (n : Nat) (op : Op K (List (List E))) :
    c.Accepts n op ↔ SettingsOk c.py c.env c.dev .sortsplit c.sizes n n ∧
      match op with
      | .insert _ => SettingsOk c.py c.env c.dev .buffer c.sizes n (n - 1)
      | .deleteMins => SettingsOk c.py c.env c.dev .sortsplit c.sizes n (n - 1) := by
  cases op with
  | insert block =>
    simp only
    rw [← resolve_ok_iff, ← resolve_ok_iff]
    constructor
    · intro h
      exact trace_insert h
    · rintro ⟨⟨s, hs⟩, ⟨t, ht⟩⟩
      unfold Setup.Accepts Setup.trace Setup.resolve
      simp only [hs, ht, bind, Except.bind]
  | deleteMins =>
    simp only
    rw [← resolve_ok_iff, ← resolve_ok_iff]
    constructor
    · intro h
      exact trace_delete h
    · rintro ⟨⟨s, hs⟩, ⟨t, ht⟩⟩
      unfold Setup.Accepts Setup.trace Setup.resolve
      simp only [hs, ht, bind, Except.bind]

/-- A word outside of the documented ones is refused on every device, even where the setting has no effect. -/
theorem bad_word_refused (c : Setup K E) (n : Nat) (op : Op K (List (List E)))
    (h : backendWord c.py c.env c.dev ∉ ["sort", "xla", "parallel", "pallas"] ∨ ¬ KvValid c.py c.env .sortsplit) : ¬ c.Accepts n op := by
  rw [accepts_iff]
  rintro ⟨h1, _⟩
  rcases h with h | h
  · exact h h1.backend
  · exact h h1.kv

/-- With batches of one entry the buffer is empty, so that the key-value kernel for it is not usable. -/
theorem kv_batch_one (c : Setup K E) (hd : c.dev = .gpu) (hk : WantsKv c.py c.env .buffer 1) (block : List (K × List (List E))) :
    ¬ c.Accepts 1 (.insert block) := by
  rw [accepts_iff]
  rintro ⟨_, h⟩
  exact absurd (h.kvKernel hk hd).2.2.2.2.1 (by simp)

end Use

/-! ## A concrete setting -/

/-- `int` of a few strings. -/
def demoPy : Py where
  strip s := s
  lower s := s
  int s := if s = "4" then some 4 else if s = "0" then some 0 else none

/-- Key-value kernel for all merges, blocks of 4, fields in shards. -/
def demoEnv : Env := fun name =>
  if name = "XTRUCTURE_BGPQ_MERGE_VALUE_BACKEND" then some "kv"
  else if name = "XTRUCTURE_BGPQ_MERGE_BLOCK_SIZE" then some "4"
  else if name = "XTRUCTURE_BGPQ_MERGE_VALUE_PACKING" then some "shard"
  else none

def demoSetup (dev : Device) : Setup (Option Nat) Nat :=
  { py := demoPy, env := demoEnv, dev, minV := some 0, maxV := none, zero := 0, sizes := [1, 3] }

/-- The hypotheses of `queue_settings` hold for it, and a history runs on the kernel. -/
example : (∀ op : Op (Option Nat) (List (List Nat)), (demoSetup .gpu).Accepts 2 op) ∧ (demoSetup .gpu).resolve .buffer 2 1 = .ok (.kv 4 [.shard, .shard]) ∧
    (demoSetup .cpu).resolve .buffer 2 1 = .ok (.idx none false) := by
  refine ⟨fun op => ?_, by rfl, by rfl⟩
  cases op <;> rfl
/-- Sizes and returned (key, entries) pairs of a history. -/
def demoRun (r : Except CfgErr (Option (Heap (Option Nat) (List (List Nat)) × List (Out (Option Nat) (List (List Nat)))))) :
    List (Nat × List (Option Nat × List Nat)) :=
  match r with
  | .ok (some x) => x.2.map fun o => (o.size, (o.ret.getD []).map fun p => (p.1, p.2.flatten))
  | _ => []
example : demoRun (runCfg (demoSetup .gpu) (build 8 2 [[0], [0, 0, 0]])
      [.insert [(some 5, [[1], [1, 1, 1]]), (some 3, [[2], [2, 2, 2]])], .insert [(some 4, [[3], [3, 3, 3]]), (some 9, [[4], [4, 4, 4]])], .deleteMins]) =
    [(2, []), (4, []), (2, [(some 3, [2, 2, 2, 2]), (some 4, [3, 3, 3, 3])])] := by
  decide +kernel
example : ¬ (demoSetup .gpu).Accepts 1 (.insert [] : Op (Option Nat) (List (List Nat))) :=
  kv_batch_one _ rfl (Or.inl (by decide +kernel)) _

end Bgpq
