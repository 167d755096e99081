import Verif.XnpProps
import Verif.SoALaws2
import Verif.SoABlock
import Verif.SoALaws3

/-!
# C98: instance methods and the public functions

`add_xnp_instance_methods` (method_factory.py:28-86) gives every class methods that call functions of `dataclass_ops` with the instance as first
argument (`_make_method`, 15-25).  The public functions of `xtructure_numpy/__init__.py` look at their first argument and call the same functions.
Here: calls of the methods that return an instance (`equal`, `isclose`, … return other things; C53), dtypes and devices left out.
-/

namespace Methods

open Agg NArr SoA
open Xnp (Val Err ret)

variable {α : Type} [Inhabited α]

/-- The shape argument of `reshape`: a tuple or list, an integer, or several integers. -/
inductive ShapeArg where
  | seq (l : List Int)
  | one (i : Int)
  | varargs (i j : Int) (rest : List Int)

/-- A call of a method whose function takes one instance. -/
inductive Call (α : Type) where
  | reshape (s : ShapeArg)
  | flatten
  | transpose (axes : Option (List Int))
  | swapaxes (i j : Int)
  | moveaxis (source destination : List Int)
  | squeeze (axes : Option (List Int))
  | expandDims (axis : Int)
  | broadcastTo (shape : List Nat)
  | roll (shifts : List Int) (axes : Option (List Int))
  | flip (axes : Option (List Int))
  | rot90 (k ax1 ax2 : Int)
  | astype (conv : α → α)
  | pad (ord : List String → List (List Nat)) (w : PadWidth) (cv : Option α)

/-- `x.method(args)` (method_factory.py:49-79, 22-23): the function of `dataclass_ops` with `x` as first argument.
`reshape` accepts all three spellings (shape_ops.py:20-26). -/
def method (c : Cls α) (x : Tree α) : Call α → Option (Tree α)
  | .reshape (.seq l) => SoA.reshape c x l
  | .reshape (.one i) => SoA.reshape c x [i]
  | .reshape (.varargs i j r) => SoA.reshape c x (i :: j :: r)
  | .flatten => SoA.flatten c x
  | .transpose axes => SoA.transposeInst c x axes
  | .swapaxes i j => SoA.swapaxes c x i j
  | .moveaxis s d => SoA.moveaxis x s d
  | .squeeze axes => SoA.squeeze x axes
  | .expandDims axis => SoA.expandDims x axis
  | .broadcastTo s => SoA.broadcastTo x s
  | .roll sh axes => SoA.roll x sh axes
  | .flip axes => SoA.flip x axes
  | .rot90 k a b => SoA.rot90 x k a b
  | .astype conv => some (SoA.astype conv x)
  | .pad ord w cv => SoA.pad c ord x w cv

/-- The `jnp` function on an array (`pad` of arrays and the entries a broadcast shape may infer are left out: `none`). -/
def onArray (a : NArr α) : Call α → Option (NArr α)
  | .reshape (.seq l) => reshapeInt a l []
  | .reshape (.one i) => reshapeInt a [i] []
  | .reshape (.varargs ..) => none
  | .flatten => some (NArr.flat a)
  | .transpose axes => NArr.transpose a (axes.getD ((List.range a.shape.length).reverse.map Int.ofNat))
  | .swapaxes i j => (normAxis i a.shape.length).bind fun p => (normAxis j a.shape.length).bind fun q => NArr.swapaxes a p q
  | .moveaxis s d => NArr.moveaxis a s d
  | .squeeze axes => NArr.squeeze a axes
  | .expandDims axis => NArr.expandDims a axis
  | .broadcastTo s => NArr.broadcastTo a s
  | .roll sh axes => NArr.roll a sh axes
  | .flip axes => NArr.flip a axes
  | .rot90 k p q => NArr.rot90 a k p q
  | .astype conv => some (mapEntries conv a)
  | .pad .. => none

/-- The public function (`xtructure_numpy/__init__.py:68-71` pad, 82-89 reshape, 92-102 ravel and flatten, 184-193 transpose and swapaxes, 237-246
expand_dims and squeeze, 340-353 moveaxis and broadcast_to, 426-452 roll, flip and rot90, 455-462 astype).  `reshape(a, 2, 3)` passes `3` as
`order`: `ValueError` for an instance (84-85; a third integer is an unexpected positional argument, `TypeError`). -/
def publicFn (env : Nat → Cls α) (v : Val α) (f : Call α) : Except Err (Val α) :=
  match v with
  | .arr a => ret Val.arr (onArray a f)
  | .inst cid x =>
    match f with
    | .reshape (.seq l) => ret (Val.inst cid) (SoA.reshape (env cid) x l)
    | .reshape (.one i) => ret (Val.inst cid) (SoA.reshape (env cid) x [i])
    | .reshape (.varargs _ _ []) => .error .valueError
    | .reshape (.varargs _ _ (_ :: _)) => .error .typeError
    | .flatten => ret (Val.inst cid) (SoA.flatten (env cid) x)
    | .transpose axes => ret (Val.inst cid) (SoA.transposeInst (env cid) x axes)
    | .swapaxes i j => ret (Val.inst cid) (SoA.swapaxes (env cid) x i j)
    | .moveaxis s d => ret (Val.inst cid) (SoA.moveaxis x s d)
    | .squeeze axes => ret (Val.inst cid) (SoA.squeeze x axes)
    | .expandDims axis => ret (Val.inst cid) (SoA.expandDims x axis)
    | .broadcastTo s => ret (Val.inst cid) (SoA.broadcastTo x s)
    | .roll sh axes => ret (Val.inst cid) (SoA.roll x sh axes)
    | .flip axes => ret (Val.inst cid) (SoA.flip x axes)
    | .rot90 k a b => ret (Val.inst cid) (SoA.rot90 x k a b)
    | .astype conv => ret (Val.inst cid) (some (SoA.astype conv x))
    | .pad ord w cv => ret (Val.inst cid) (SoA.pad (env cid) ord x w cv)

/-- The method as a result of the same kind. -/
def methodResult (env : Nat → Cls α) (cid : Nat) (x : Tree α) (f : Call α) : Except Err (Val α) := ret (Val.inst cid) (method (env cid) x f)

/-- **C98.**  Called with one argument for the shape, every method of one instance does what the public function of that name does to the
instance. -/
theorem method_is_function (env : Nat → Cls α) (cid : Nat) (x : Tree α) (f : Call α) (hf : ∀ i j r, f ≠ .reshape (.varargs i j r)) :
    methodResult env cid x f = publicFn env (.inst cid x) f := by
  cases f with
  | reshape s => cases s with
    | seq l => rfl
    | one i => rfl
    | varargs i j r => exact absurd rfl (hf i j r)
  | _ => rfl

/-- **C98.**  `x.reshape(2, 3)`, `x.reshape((2, 3))` and `xnp.reshape(x, (2, 3))` are the same; `xnp.reshape(x, 2, 3)` is refused. -/
theorem reshape_spellings (env : Nat → Cls α) (cid : Nat) (x : Tree α) (i j : Int) (r : List Int) :
    methodResult env cid x (.reshape (.varargs i j r)) = methodResult env cid x (.reshape (.seq (i :: j :: r))) ∧
    methodResult env cid x (.reshape (.seq (i :: j :: r))) = publicFn env (.inst cid x) (.reshape (.seq (i :: j :: r))) ∧
    methodResult env cid x (.reshape (.one i)) = methodResult env cid x (.reshape (.seq [i])) ∧
    ∃ e, publicFn env (.inst cid x) (.reshape (.varargs i j r)) = .error e :=
  ⟨rfl, rfl, rfl, by cases r <;> exact ⟨_, rfl⟩⟩

/-! ## The stacking methods -/

/-- The methods whose function takes a sequence (method_factory.py:64-67). -/
inductive Stacking where
  | vstack
  | hstack
  | dstack
  | columnStack

/-- The public function of that name. -/
def Stacking.fn : Stacking → Xnp.ListFn
  | .vstack => .vstack
  | .hstack => .hstack
  | .dstack => .dstack
  | .columnStack => .columnStack

/-- `tree_map(…, *tup)` (batch_ops.py:281-296) for the unpacked list. -/
def Stacking.onList : Stacking → List (Tree α) → Option (Tree α)
  | .vstack, l => SoA.vstack l
  | .hstack, l => SoA.hstack l
  | .dstack, l => SoA.dstack l
  | .columnStack, l => SoA.columnStack l

/-- `*x` ends with the list `l`: the iteration over `x` meets an `IndexError` after the elements of `l`. -/
def Unpacks (x : Tree α) (l : List (Tree α)) : Prop := ∃ m, (iterSteps x m).length < m ∧ l = iterSteps x m

/-- `x.vstack(…)` returns `r`: the function is called with `tup = x`, so it unpacks the instance itself; the arguments given by the caller are
bound to `dtype` (or are too many) and do not matter for this. -/
def Stacking.Returns (s : Stacking) (x r : Tree α) : Prop := ∃ l, Unpacks x l ∧ s.onList l = some r

theorem not_unpacks {x : Tree α} {f : Nat → Tree α} (h : ∀ k : Nat, getitem x (.basic [.int (k : Int)]) = some (f k)) (l : List (Tree α)) :
    ¬ Unpacks x l := by
  rintro ⟨m, hm, -⟩
  rw [iterSteps_of h] at hm
  simp at hm

/-- The iteration over a record whose fields all have an axis never ends either. -/
theorem getitem_axes {x : Tree α} (h : ∀ a ∈ leaves x, ∃ d s, a.shape = d :: s) (k : Nat) :
    ∃ y, getitem x (.basic [.int (k : Int)]) = some y := by
  have hs : ∀ a ∈ leaves x, (NArr.index a (.basic [.int (k : Int)])) = some ((NArr.index a (.basic [.int (k : Int)])).getD default) := by
    intro a ha
    obtain ⟨d, s, hsh⟩ := h a ha
    unfold NArr.index
    rw [hsh]
    rfl
  exact ⟨_, treeMapM_some (f := fun a => NArr.index a (.basic [.int (k : Int)])) (g := fun a => (NArr.index a (.basic [.int (k : Int)])).getD default) hs⟩

/-- **C98, finding.**  `x.vstack`, `x.hstack`, `x.dstack` and `x.column_stack` never return: on a non-empty batch, and on a single record whose fields
all have axes, the call unpacks the instance and that iteration has no end (C60); on a single record with a scalar field it raises. -/
theorem stacking_methods_false (s : Stacking) (r : Tree α) :
    (∀ (n : Nat) (b : List Nat) (c : Cls α) (x : Tree α), Conf (n :: b) c x → 0 < n → (∀ l, ¬ Unpacks x l) ∧ ¬ s.Returns x r) ∧
    (∀ (c : Cls α) (x : Tree α), Conf [] c x → c ≠ .nil → c.HasFields → (∃ a ∈ leaves x, a.shape = []) → Unpacks x [] ∧ ¬ s.Returns x r) ∧
    (∀ x : Tree α, (∀ a ∈ leaves x, ∃ d t, a.shape = (d + 1) :: t) → (∀ l, ¬ Unpacks x l) ∧ ¬ s.Returns x r) := by
  refine ⟨fun n b c x h hn => ?_, fun c x h hne hc hs => ?_, fun x h => ?_⟩
  · have hu := not_unpacks (fun k => (getitem_clamped h hn k).1)
    exact ⟨hu, fun ⟨l, hl, _⟩ => hu l hl⟩
  · have hm := fun m => (iter_single hne hc h hs m).2
    refine ⟨⟨1, by rw [hm]; exact Nat.zero_lt_one, (hm 1).symm⟩, ?_⟩
    rintro ⟨l, ⟨m, _, rfl⟩, hr⟩
    rw [hm] at hr
    cases s <;> cases hr
  · have hg := getitem_axes (fun a ha => by obtain ⟨d, t, e⟩ := h a ha; exact ⟨d + 1, t, e⟩)
    have hu := not_unpacks (fun k => (Classical.choose_spec (hg k)))
    exact ⟨hu, fun ⟨l, hl, _⟩ => hu l hl⟩

/-- **C98, finding.**  The public function stacks the same two instances. -/
theorem stacking_differs : ∃ (env : Nat → Cls Nat) (x : Tree Nat) (z : Val Nat), Conf [2] (env 0) x ∧
    Xnp.ListFn.call env .vstack [.inst 0 x, .inst 0 x] = .ok z ∧ ∀ r, ¬ Stacking.vstack.Returns x r := by
  refine ⟨fun _ => demoSetC, demoSetX, .inst 0 (.leaf "a" ⟨[2, 2], [1, 2, 1, 2]⟩ (.leaf "v" ⟨[4, 2], [3, 4, 5, 6, 3, 4, 5, 6]⟩ .nil)),
    ⟨rfl, ⟨rfl, rfl⟩, rfl, ⟨rfl, rfl⟩, trivial⟩, by rfl, fun r => ?_⟩
  exact ((stacking_methods_false .vstack r).1 2 [] demoSetC demoSetX ⟨rfl, ⟨rfl, rfl⟩, rfl, ⟨rfl, rfl⟩, trivial⟩ (by decide)).2

/-! ## block -/

/-- `x.block()` (method_factory.py:68): `block` of the instance itself, not nested in a list. -/
def methodBlock (x : Tree α) : Option (Tree α) := SoA.block .one [x]

/-- **C98.**  `x.block()` is `x`. -/
theorem block_method (x : Tree α) : methodBlock x = some x := by
  have ht : ∀ x : Tree α, SoA.transpose x [] = some (treeMap (fun a => [a]) x) := by
    intro x
    induction x with
    | nil => rfl
    | leaf n a rest ih => simp [SoA.transpose, treeMap, ih]
    | nested n s rest ih1 ih2 => simp [SoA.transpose, treeMap, ih1, ih2]
  rw [methodBlock, block_eq_treeMapN (ht x), treeMapN, ht, Option.bind_some]
  induction x with
  | nil => rfl
  | leaf n a rest ih => 
    simp only [treeMap, treeMapM, ih]
    rfl
  | nested n s rest ih1 ih2 => simp only [treeMap, treeMapM, ih1, ih2]; rfl

/-- A method that does something: the batch of two records reversed, by the method and by the function. -/
example : methodResult (fun _ => demoSetC) 0 demoSetX (.flip (some [0])) =
    .ok (.inst 0 (.leaf "a" ⟨[2], [2, 1]⟩ (.leaf "v" ⟨[2, 2], [5, 6, 3, 4]⟩ .nil))) ∧
    Conf [2] demoSetC demoSetX ∧ (∀ a ∈ leaves demoSetX, ∃ d t, a.shape = (d + 1) :: t) := by
  refine ⟨by rfl, ⟨rfl, ⟨rfl, rfl⟩, rfl, ⟨rfl, rfl⟩, trivial⟩, ?_⟩
  intro a ha
  simp only [demoSetX, leaves, List.mem_cons, List.not_mem_nil, or_false] at ha
  rcases ha with rfl | rfl <;> exact ⟨_, _, rfl⟩

end Methods
