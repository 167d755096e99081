/-!
# Model of `xtructure/core/dataclass.py`: registration of dataclasses as JAX pytrees

An object is its `__dict__`: attribute names and values, in insertion order, names distinct.  `none` is an exception.  No class of the repository has
a `__post_init__`, so the calls of it are left out.  One level of flattening is modelled; JAX applies it to nested objects recursively.
-/

namespace Pytree

variable {V : Type}

/-- A registered class: its declared fields in order and the static ones among them. -/
structure Class where
  fields : List String
  static : List String

/-- `obj.__dict__`. -/
abbrev Attrs (V : Type) := List (String × V)

/-- `_INTERNAL_CACHE_KEYS` (dataclass.py:13-15). -/
def cacheKeys : List String := ["_shape_cache", "_dtype_cache", "_structured_type_cache"]

/-- `list.sort()` of strings. -/
def sortKeys (l : List String) : List String := l.mergeSort fun a b => decide (a ≤ b)

/-- Declared fields first, then other attributes sorted (dataclass.py:210-228, 273-287, 317-331). -/
def orderedKeys (c : Class) (d : Attrs V) : List String :=
  let seen := c.fields.filter fun n => (d.map (·.1)).contains n
  let extra := (d.map (·.1)).filter fun k => !seen.contains k && !cacheKeys.contains k
  seen ++ sortKeys extra

/-- The static metadata of a pytree node: the attribute names, or (names of children, static items). -/
inductive Aux (V : Type) where
  | keys (l : List String)
  | static (child : List String) (items : List (String × V))

/-- `flatten` (dataclass.py:307-350): children and aux data; `hashable`: `hash(value)` does not raise. -/
def flatten (hashable : V → Bool) (c : Class) (d : Attrs V) : Option (List V × Aux V) :=
  if d = [] then
    if c.static = [] then some ([], .keys []) else some ([], .static [] [])
  else if c.static = [] then
    ((orderedKeys c d).mapM fun k => d.lookup k).map fun vs => (vs, .keys (orderedKeys c d))
  else
    let child := (orderedKeys c d).filter fun k => !c.static.contains k
    (((orderedKeys c d).filter fun k => c.static.contains k).mapM fun k => (d.lookup k).map fun v => (k, v)).bind fun items =>
      if items.all fun e => hashable e.2 then (child.mapM fun k => d.lookup k).map fun vs => (vs, .static child items) else none

/-- `flatten_with_keys` for classes with static fields (dataclass.py:263-305), `_flatten_with_path` otherwise (dataclass.py:201-228). -/
def flattenWithKeys (hashable : V → Bool) (c : Class) (d : Attrs V) : Option (List (String × V) × Aux V) :=
  if d = [] then
    if c.static = [] then some ([], .keys []) else some ([], .static [] [])
  else if c.static = [] then
    ((orderedKeys c d).mapM fun k => (d.lookup k).map fun v => (k, v)).map fun path => (path, .keys (orderedKeys c d))
  else
    let child := (orderedKeys c d).filter fun k => !c.static.contains k
    (((orderedKeys c d).filter fun k => c.static.contains k).mapM fun k => (d.lookup k).map fun v => (k, v)).bind fun items =>
      if items.all fun e => hashable e.2 then (child.mapM fun k => (d.lookup k).map fun v => (k, v)).map fun path => (path, .static child items) else none

/-- `dict(l)[k]`: the last of several entries with the same key. -/
def dictGet (l : List (String × V)) (k : String) : Option V := l.reverse.lookup k

/-- Setting the declared fields found in a dictionary, in declaration order (dataclass.py:188-194, 367-371). -/
def setFields (c : Class) (l : List (String × V)) : Attrs V := c.fields.filterMap fun n => (dictGet l n).map fun v => (n, v)

/-- `_dataclass_unflatten` (dataclass.py:183-198) and `unflatten` for classes with static fields (dataclass.py:352-375): the static items overwrite
children of the same name. -/
def unflatten (c : Class) (aux : Aux V) (children : List V) : Option (Attrs V) :=
  match aux with
  | .keys l => if c.static = [] then some (setFields c (l.zip children)) else none
  | .static child items => if c.static = [] then none else some (setFields c (child.zip children ++ items))

/-- `jax.tree_util.tree_map(f, obj)` on the children of one node. -/
def treeMap (hashable : V → Bool) (c : Class) (f : V → V) (d : Attrs V) : Option (Attrs V) :=
  (flatten hashable c d).bind fun p => unflatten c p.2 (p.1.map f)

/-- `__init__` generated by `dataclasses.dataclass`: positional arguments, then keywords, for fields without defaults (as in every class of the
repository and in `xtructure_dataclass`). -/
def init (c : Class) (args : List V) (kw : List (String × V)) : Option (Attrs V) :=
  if c.fields.length < args.length then none
  else if kw.any (fun e => !(c.fields.drop args.length).contains e.1) then none
  else c.fields.mapM fun n => (((c.fields.zip args).lookup n).or (dictGet kw n)).map fun v => (n, v)

/-- `obj.replace(**kw)`: `dataclasses.replace` (dataclass.py:133-134). -/
def replace (c : Class) (d : Attrs V) (kw : List (String × V)) : Option (Attrs V) :=
  ((c.fields.filter fun n => !(kw.map (·.1)).contains n).mapM fun n => (d.lookup n).map fun v => (n, v)).bind fun rest => init c [] (kw ++ rest)

/-- `obj.to_tuple()` (dataclass.py:130-131). -/
def toTuple (c : Class) (d : Attrs V) : Option (List V) := c.fields.mapM fun n => d.lookup n

/-- `Class.from_tuple(args)` (dataclass.py:127-128): the constructor is called with one positional argument, the `zip` object. -/
def fromTuple (zipObj : List (String × V) → V) (c : Class) (args : List V) : Option (Attrs V) := init c [zipObj (c.fields.zip args)] []

end Pytree
