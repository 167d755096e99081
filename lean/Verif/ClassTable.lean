import Verif.HashPair
import Verif.HTMasks
import Verif.SearchCost

/-!
# C109: tables of dataclasses, with nothing left to check

C23, C83, C95 and C104 hold for arbitrary hash functions, under conditions on the hashes and words of each batch (`GuardFor`).  Items of a table are hashed by
`hash_pair` (hash.py:351-372, hash_utils.py:539-594).  For them the conditions come down to: the keys given to filled lanes are finite.
-/

namespace ClassTable

open Dedupe DedupeSpec HashModel
open Bgpq (Py Env Device CfgErr)

universe u v

variable {α : Type u} {K : Type v} [KeyTop K] {seed : W}

/-- What is asked of the mode and the number of words of an item: mode `exact`, or mode `safe` and at most 8 words. -/
def Plain (mode : Mode) (wc : Nat) : Prop := mode = .exact ∨ mode = .safe ∧ wc ≤ 8

/-- Items hashed by `hash_pair`: what is left of `GuardFor`. -/
theorem guardFor_iff {E : Enc α} (h : Hashed E seed) (xs : List α) (filled : List Bool) (key : Option (List K)) :
    (GuardFor .approx E xs filled key ↔ Distinct E xs filled) ∧
    (GuardFor .safe E xs filled key ↔ AllFilled xs filled ∨ Distinct E xs filled ∨
      (KeysFinite xs filled key ∨ WordsClean E xs filled) ∧ SignaturesClean E xs filled) := by
  have hc := h.clean xs filled
  have hd := h.distinct xs filled
  constructor
  · exact ⟨fun hg => hd.1 hg.1, fun hn => ⟨hd.2 hn, Or.inr (Or.inr hc)⟩⟩
  · constructor
    · rintro (ha | ⟨_, hn⟩ | ⟨_, hw⟩)
      · exact Or.inl ha
      · exact Or.inr (Or.inl (hd.1 hn))
      · exact Or.inr (Or.inr hw)
    · rintro (ha | hn | hw)
      · exact Or.inl ha
      · exact Or.inr (Or.inl ⟨Or.inr hc, hd.2 hn⟩)
      · exact Or.inr (Or.inr ⟨hc, hw⟩)

theorem plain_guard {E : Enc α} (h : Hashed E seed) {mode : Mode} (hm : Plain mode E.wc) {xs : List α} {filled : List Bool} {key : Option (List K)}
    (hk : KeysFinite xs filled key) : GuardFor mode E xs filled key := by
  rcases hm with rfl | ⟨rfl, h8⟩
  · exact Or.inr (Or.inl hk)
  · exact (guardFor_iff h xs filled key).2.2 (Or.inr (Or.inr ⟨Or.inl hk, fun h => absurd h (by omega)⟩))

/-- Without keys nothing is asked of a batch. -/
theorem keysFinite_none (xs : List α) (filled : List Bool) : KeysFinite (K := K) xs filled none := fun _ h => by cases h

variable [DecidableEq α]

/-- **C109 (1).**  In mode `exact`, and in mode `safe` (the default) for classes of at most 8 words, the masks and the indices of `parallel_insert` are exact for every
table, batch, mask and back-end, without keys or with finite ones: `unique` marks exactly the best lane of each filled item, and every filled lane whose item is
in the table afterwards gets its index. -/
theorem masks_exact {H : HashTable.Hasher α} (hh : Hashed H.toEnc seed) {mode : Mode} (hm : Plain mode H.wc) {T : HashTable.Table α} (hr : HashTable.Reachable K H T)
    (be : HashTable.Backend) (xs : List α) (filled : List Bool) (key : Option (List K)) (hk : KeysFinite xs filled key) :
    let r := HashTable.parallelInsert be mode H T xs filled key
    (∀ l : Nat, l < xs.length → (r.unique[l]? = some true ↔ filled[l]? = some true ∧ IsBest xs filled key l l)) ∧
    (∃ ys, HashTable.Lists ys (fun x => ∃ l : Nat, xs[l]? = some x ∧ filled[l]? = some true) ∧ r.unique.countP id = ys.length) ∧
    ∀ (l : Nat) (x : α), xs[l]? = some x → filled[l]? = some true → (∃ i, HashTable.Stored r.table x i) → HashTable.Stored r.table x (r.idx.getD l 0) := by
  intro r
  have hg := plain_guard hh hm hk
  obtain ⟨h1, h2⟩ := HashTable.masks_unique_partial (T := T) be xs filled key hg
  exact ⟨h1, h2, fun l x hx hf hst => HashTable.parallel_insert_index_partial hr be xs filled key hg l x hx hf hst⟩

/-- No setting is made. -/
def noSettings (py : Py) (dev : Device) : HashTable.HSetup := ⟨py, fun _ => none, fun _ => none, dev⟩

/-- What is asked of a call: a batch is not empty, its keys are finite, and where no kernel is used (on a CPU, or for buckets of more than 32 slots) `max_probes` is
large enough. -/
def Asked (dev : Device) (cap bs maxProbes : Nat) : HashTable.Call α K → Prop
  | .parallelInsert xs f key => xs ≠ [] ∧ KeysFinite xs (f.toMask xs) key ∧ (dev = .cpu ∨ 32 < bs → xs.length * (cap * (bs + 1)) ≤ maxProbes)
  | _ => True

/-- **C109 (2).**  With no setting made, the table of a class of at most 8 words returns the answers of a set, for every history of calls whose items have room, every
device, schedule of the GPU programs and seed: nothing is asked of the hashes. -/
theorem default_table_is_a_set (py : Py) (dev : Device) (h1 : HashTable.word py "safe" = "safe") (h2 : HashTable.word py "stable_argsort" = "stable_argsort")
    {H : HashTable.Hasher α} (hh : Hashed H.toEnc seed) (h8 : H.wc ≤ 8) (d : α) {capacity bs mult : Nat} {mp : Option Nat}
    (hv : HashTable.ValidParams capacity bs mult mp) (U : List α) (hU : U.length ≤ HashTable.internalCap capacity bs mult * bs)
    (os : List (HashTable.Call α K × HashTable.Choice)) (hoff : ∀ o ∈ os, ∀ x, o.1.offers x → x ∈ U)
    (hask : ∀ o ∈ os, Asked dev (HashTable.internalCap capacity bs mult) bs (HashTable.build d capacity bs mult mp).maxProbes o.1) :
    ∃ T rs, HashTable.calls (noSettings py dev) H (HashTable.build d capacity bs mult mp) os = .ok (T, rs) ∧
      HashTable.BehavesAll (fun _ => False) (os.map Prod.fst) rs := by
  have hfree : ∀ name cap, HashTable.Unlimited py (fun _ => none) name cap := fun _ _ v h => by cases h
  have hon : ∀ name, HashTable.Enabled py (fun _ => none) name := fun _ v h => by cases h
  have hmode : (noSettings py dev).asked = .safe := by
    have e : (noSettings py dev).modeWord = "safe" := h1
    unfold HashTable.HSetup.asked
    rw [e]
    decide
  have hsort : (noSettings py dev).sortWord = "stable_argsort" := h2
  refine HashTable.table_is_a_set (noSettings py dev) H d hv ⟨HashTable.no_settings_accepted py dev h1 h2 bs, fun _ => hfree _ _, fun _ => hfree _ _⟩ U hU os hoff fun o ho => ?_
  obtain ⟨o, ch⟩ := o
  have ha := hask _ ho
  cases o with
  | insert x => trivial
  | lookup x => trivial
  | lookupParallel xs f => trivial
  | parallelInsert xs f key =>
    refine ⟨ha.1, ?_, fun h3 h4 => ha.2.2 ?_, fun h => ?_⟩
    · rw [hmode]
      exact plain_guard hh (Or.inr ⟨rfl, h8⟩) ha.2.1
    · cases dev with
      | cpu => exact Or.inl rfl
      | gpu =>
        refine Or.inr (Nat.lt_of_not_le fun h => h3 ⟨rfl, h, hon _⟩)
      | tpu => exact Or.inr (Nat.lt_of_not_le fun h => h4 ⟨rfl, h, hon _⟩)
    · rw [hsort] at h
      exact absurd h (by decide)

/-- What is asked of a step of a search: the mode, and a back-end that places what fits (C22). -/
def Steady (wc : Nat) (T : HashTable.Table α) (batch : Nat) {K : Type v} : SearchSpec.Op α K → Prop
  | .expand be mode _ _ _ => Plain mode wc ∧ (be.Complete T ∨ (be = .xla ∧ batch * (T.cap * (T.bs + 1)) ≤ T.maxProbes))
  | .pop => True

theorem steady_exact {K : Type v} [KeyInf K] {H : HashTable.Hasher α} (hh : Hashed H.toEnc seed) {T : HashTable.Table α} {batch : Nat} {op : SearchSpec.Op α K}
    (hw : Search.WellFormed batch op) (hs : Steady H.wc T batch op) : Search.Exact H T batch op := by
  cases op with
  | pop => trivial
  | expand be mode xs filled keys =>
    obtain ⟨w1, w2, w3⟩ := hw
    refine ⟨plain_guard hh hs.1 ?_, hs.2⟩
    intro ks e i hi _
    cases e
    have hik : i < keys.length := by omega
    rw [List.getD_eq_getElem?_getD, List.getElem?_eq_getElem hik, Option.getD_some]
    have := w3 _ (List.getElem_mem hik)
    rw [KeyInf.isFin_eq] at this
    simpa using this

/-- **C109 (3).**  A search over states of such a class (C95) misses nothing, whatever the hashes of its states: each generated state is opened once, with its least
key. -/
theorem class_search_misses_nothing {K : Type v} [KeyInf K] {H : HashTable.Hasher α} (hh : Hashed H.toEnc seed) (d : α) {total batch capacity bs mult : Nat}
    {mp : Option Nat} (hv : HashTable.ValidParams capacity bs mult mp) (ht : 0 < total) (hb : 0 < batch)
    (hcap : (Bgpq.build total batch 0 : Bgpq.Heap K Nat).maxSize + batch ≤ 2 ^ 32)
    (hroom : HashTable.internalCap capacity bs mult * bs < (Bgpq.build total batch 0 : Bgpq.Heap K Nat).maxSize + batch)
    (ops : List (SearchSpec.Op α K)) (hw : ∀ op ∈ ops, Search.WellFormed batch op)
    (hs : ∀ op ∈ ops, Steady H.wc (HashTable.build d capacity bs mult mp) batch op)
    (hslots : ops.length * batch ≤ HashTable.internalCap capacity bs mult * bs) :
    ∃ s outs a, Search.run H (⟨HashTable.build d capacity bs mult mp, Bgpq.build total batch 0⟩ : Search.St α K) ops = some (s, outs) ∧
      SearchSpec.Trace batch true ⟨[], []⟩ ops outs a ∧ (∀ x, x ∈ a.seen ↔ ∃ i, HashTable.Stored s.table x i) :=
  Search.search_misses_nothing H d hv ht hb hcap hroom ops hw (fun op ho => steady_exact hh (hw op ho) (hs op ho)) hslots

/-- **C109 (4).**  A search that opens a state again when it finds a smaller key (C96): no two entries returned for a state have equal keys, and when the queue is empty
every generated state has been returned, shown as up to date, with the least of its keys. -/
theorem class_search_reopen_best {K : Type v} [KeyInf K] {H : HashTable.Hasher α} (hh : Hashed H.toEnc seed) (d : α) {total batch capacity bs mult : Nat}
    {mp : Option Nat} (hv : HashTable.ValidParams capacity bs mult mp) (ht : 0 < total) (hb : 0 < batch)
    (hcap : (Bgpq.build total batch 0 : Bgpq.Heap K Nat).maxSize + batch ≤ 2 ^ 32) (ops : List (SearchSpec.Op α K × List Nat))
    (hqueue : ops.length * batch < (Bgpq.build total batch 0 : Bgpq.Heap K Nat).maxSize + batch)
    (hslots : ops.length * batch ≤ HashTable.internalCap capacity bs mult * bs)
    (heach : ∀ o ∈ ops, Search.WellFormed batch o.1 ∧ o.2.Perm (List.range batch) ∧ Steady H.wc (HashTable.build d capacity bs mult mp) batch o.1) :
    ∃ s outs, SearchCost.run H (SearchCost.init d capacity bs mult mp total batch : SearchCost.St α K) ops = some (s, outs) ∧
      (outs.flatten.Pairwise fun o o' => o.2.1 = o'.2.1 → ¬ (KeyCmp.le o.1 o'.1 = true ∧ KeyCmp.le o'.1 o.1 = true)) ∧
      (s.queue.size = 0 → ∀ q ∈ SearchCostSpec.generated (ops.map Prod.fst), ∃ k, (k, some q.2, true) ∈ outs.flatten ∧
        (k, q.2) ∈ SearchCostSpec.generated (ops.map Prod.fst) ∧ SearchCostSpec.Least (SearchCostSpec.generated (ops.map Prod.fst)) (k, q.2)) :=
  SearchCost.search_reopen_best ⟨hv, ht, hb, hcap, hqueue, hslots, fun o ho => ⟨(heach o ho).1, (heach o ho).2.1, steady_exact hh (heach o ho).1 (heach o ho).2.2⟩⟩

/-- The hashers of dataclasses are such hashers: raw classes, and classes with an aggregate layout. -/
theorem hashers_hashed (m : Stream) (layout : List (Kind × Nat)) (C : ACls) (w : Way) (seed : W) :
    Hashed (classHasher m layout seed).toEnc seed ∧ Hashed (itemHasher C w seed).toEnc seed := ⟨class_hashed m layout seed, item_hashed C w seed⟩

/-! ## What goes wrong with a key `+inf` -/

/-- A pair of 32-bit words as an instance. -/
def pair (a b : W) : Inst [(.b32, 2)] := ⟨[.w32 [a, b]], rfl⟩

/-- **C109, why the keys are to be finite.**  Seed 42, mode `safe`, three lanes of a class with two 32-bit words: an unfilled lane, the instance with all bits set and
key `+inf`, and an instance with the same hashes.  The second is not inserted: after the call the table does not contain it.  With a finite key it does. -/
theorem infinite_key_loses_item :
    let T : HashTable.Table (Inst [(.b32, 2)]) := HashTable.build (pair 0 0) 8 2 2 none
    let H := classHasher .off [(.b32, 2)] 42
    let call := fun (k : Option Nat) => HashTable.parallelInsert (.pallas 16) .safe H T [pair 7 7, pair 0xFFFFFFFF 0xFFFFFFFF, pair 0 4286601211]
      [false, true, true] (some [some 1, k, some 2])
    (call none).unique = [false, false, true] ∧ (HashTable.lookup H (call none).table (pair 0xFFFFFFFF 0xFFFFFFFF)).2 = false ∧
    (call (some 5)).unique = [false, true, true] ∧ (HashTable.lookup H (call (some 5)).table (pair 0xFFFFFFFF 0xFFFFFFFF)).2 = true := by
  decide +kernel

/-- Non-vacuity: a history with the same batch and finite keys meets the hypotheses of (2), on a GPU and, with enough probes, on a CPU; two classes of at most 8 words; a step of a
search that meets the hypotheses of (3). -/
example :
    let os : List (HashTable.Call (Inst [(.b32, 2)]) (Option Nat)) := [.insert (pair 1 2), .parallelInsert [pair 7 7, pair 0xFFFFFFFF 0xFFFFFFFF, pair 0 4286601211]
      (.mask [false, true, true]) (some [none, some 5, some 2]), .lookupParallel [pair 7 7, pair 0xFFFFFFFF 0xFFFFFFFF] .absent]
    (∀ o ∈ os, Asked .gpu (HashTable.internalCap 8 2 2) 2 (HashTable.build (pair 0 0) 8 2 2 none).maxProbes o) ∧
    (∀ o ∈ os, Asked .cpu (HashTable.internalCap 8 2 2) 2 (HashTable.build (pair 0 0) 8 2 2 (some 200)).maxProbes o) ∧
    HashTable.ValidParams 8 2 2 none ∧ HashTable.ValidParams 8 2 2 (some 200) ∧ HashTable.word HashTable.demoPy "safe" = "safe" ∧
    (classHasher .off [(.b32, 2)] 42).wc = 2 ∧ (classHasher .off [(.b32, 4), (.b8, 13)] 42).wc = 8 ∧
    Search.WellFormed (K := Option Nat) 2 (.expand (.pallas 8) .safe [pair 1 1, pair 0xFFFFFFFF 0xFFFFFFFF] [false, true] [some 3, some 6]) ∧
    Steady (K := Option Nat) 2 (HashTable.build (pair 0 0) 8 2 2 none) 2 (.expand (.pallas 8) .safe [pair 1 1, pair 0xFFFFFFFF 0xFFFFFFFF] [false, true] [some 3, some 6]) := by
  intro os
  have hk : KeysFinite [pair 7 7, pair 0xFFFFFFFF 0xFFFFFFFF, pair 0 4286601211] [false, true, true] (some [none, some 5, some 2] : Option (List (Option Nat))) := by
    intro ks h i hi hf
    cases h
    match i, hi with
    | 0, _ => cases hf
    | 1, _ => decide +kernel
    | 2, _ => decide +kernel
  refine ⟨?_, ?_, ⟨by decide, by decide, by decide +kernel, by intro m h; cases h⟩, ⟨by decide, by decide, by decide +kernel, by intro m h; cases h; decide +kernel⟩,
    by decide +kernel, rfl, rfl, ⟨rfl, rfl, by decide⟩, Or.inr ⟨rfl, by decide⟩, Or.inl ⟨by decide, by decide +kernel⟩⟩
  · intro o ho
    simp only [os, List.mem_cons, List.not_mem_nil, or_false] at ho
    rcases ho with rfl | rfl | rfl
    · trivial
    · exact ⟨by simp, hk, fun h => h.elim (fun h => by cases h) (fun h => absurd h (by decide))⟩
    · trivial
  · intro o ho
    simp only [os, List.mem_cons, List.not_mem_nil, or_false] at ho
    rcases ho with rfl | rfl | rfl
    · trivial
    · exact ⟨by simp, hk, fun _ => by decide +kernel⟩
    · trivial

end ClassTable
