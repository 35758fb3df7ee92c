/-!
Virtual tables, interface tables and assignability (src/machine.cpp:1204-1311, 2351-2760, 4591-4640;
src/avian/machine.h:2689-2715, 3221).

* A class is referred to by its position in the list of loaded classes; a superclass and the
  interfaces of a class are loaded before it (`resolveClass` in `parseClass`, machine.cpp:4786-4798,
  and in `parseInterfaceTable`).
* A method is known by its key, which stands for the pair of name and descriptor compared by
  `methodEqual` (machine.h:2253); a name is a number.
* Hash maps are association lists; that the hash map of the code behaves like one is proved in
  `Verif.Props.HashMap`. The order in which `HashMapIterator` delivers the interfaces is a parameter
  `ord` of the model.
* A null table is the empty list. Classes that are resolved in two phases (`BootstrapFlag`) are left
  out.
-/

namespace Avian.Dispatch

/-- a method in a class file; `virt` is `methodVirtual` (machine.h:3241): neither static nor private
and its name does not start with `<`; `code` identifies the body -/
structure MethodFile where
  key : Nat
  virt : Bool
  code : Nat
  deriving DecidableEq, Repr

structure ClassFile where
  name : Nat
  iface : Bool
  super : Option Nat
  ifaces : List Nat
  methods : List MethodFile
  deriving DecidableEq, Repr

/-- src classpath/avian/VMMethod.java:13-26; `offset` is 16 bits wide -/
structure Method where
  key : Nat
  offset : Nat
  cls : Nat
  code : Nat
  deriving DecidableEq, Repr

/-- classpath/avian/VMClass.java:13-43. `itable` holds the pairs of an interface and the method table
for it (empty in an interface, where the table of the code has stride one). -/
structure Class where
  name : Nat
  iface : Bool
  super : Option Nat
  itable : List (Nat × List (Option Method))
  vtable : List (Option Method)
  deriving DecidableEq, Repr

def noClass : Class := ⟨0, false, none, [], []⟩

/-- the class at a position -/
def at' (w : List Class) (i : Nat) : Class := w.getD i noClass

/-! ### Interface tables -/

/-- `hashMapInsertMaybe` with the name of the interface as the key -/
def insertMaybe (map : List (Nat × Nat)) (name i : Nat) : List (Nat × Nat) :=
  if map.any (fun e => e.1 == name) then map else map ++ [(name, i)]

/-- machine.cpp:1204-1223 `addInterfaces`. -/
def addInterfaces (w : List Class) (c : Class) (map : List (Nat × Nat)) : List (Nat × Nat) :=
  c.itable.foldl (fun map e => insertMaybe map (at' w e.1).name e.1) map

/-- machine.cpp:1243-1284: the map of all interfaces of a class. -/
def interfaceMap (w : List Class) (f : ClassFile) : List (Nat × Nat) :=
  let map := match f.super with
    | some s => addInterfaces w (at' w s) []
    | none => []
  f.ifaces.foldl (fun map i => addInterfaces w (at' w i) (insertMaybe map (at' w i).name i)) map

/-- machine.cpp:1286-1310: the table as `parseInterfaceTable` leaves it, with method tables full of
null. -/
def parseInterfaceTable (ord : List (Nat × Nat) → List (Nat × Nat)) (w : List Class) (f : ClassFile) :
    List (Nat × List (Option Method)) :=
  (ord (interfaceMap w f)).map fun e =>
    (e.2, if f.iface then [] else List.replicate (at' w e.2).vtable.length none)

/-! ### Method tables -/

/-- the map `virtualMap`: each node has a method as key (`first`) and a method as value (`second`) -/
abbrev VMap := List (Method × Method)

/-- `hashMapFindNode` with `methodEqual` -/
def vfind (m : VMap) (k : Nat) : Option (Method × Method) := m.find? (fun e => e.1.key == k)

/-- `p->setSecond` -/
def vset (m : VMap) (k : Nat) (x : Method) : VMap :=
  m.map fun e => if e.1.key == k then (e.1, x) else e

/-- `hashMapFind` with `methodEqual` -/
def vget (m : VMap) (x : Option Method) : Option Method := x.bind fun x => (vfind m x.key).map (·.2)

/-- the variables of `parseMethodTable` -/
structure St where
  map : VMap
  count : Nat
  new : List Method
  declared : Nat

/-- machine.cpp:2577-2597: one method of the class file. -/
def declare (c : Nat) (st : St) (m : MethodFile) : St :=
  if m.virt then
    match vfind st.map m.key with
    | some p =>
      { st with declared := st.declared + 1,
                map := vset st.map m.key ⟨m.key, p.1.offset, c, m.code⟩ }
    | none =>
      let x : Method := ⟨m.key, st.count % 65536, c, m.code⟩
      { map := st.map ++ [(x, x)], count := st.count + 1, new := st.new ++ [x],
        declared := st.declared + 1 }
  else st

/-- machine.cpp:2377-2405: one method of an interface in `addInterfaceMethods`. -/
def addMethod (c : Nat) (st : VMap × Nat × List Method) (m : Option Method) : VMap × Nat × List Method :=
  match m with
  | none => st
  | some m =>
    match vfind st.1 m.key with
    | some _ => st
    | none =>
      let x : Method := ⟨m.key, st.2.1 % 65536, c, m.code⟩
      (st.1 ++ [(x, x)], st.2.1 + 1, st.2.2 ++ [x])

/-- machine.cpp:2351-2414 `addInterfaceMethods`. -/
def addInterfaceMethods (w : List Class) (c : Nat) (itable : List (Nat × List (Option Method)))
    (st : VMap × Nat × List Method) : VMap × Nat × List Method :=
  itable.foldl (fun st e => (at' w e.1).vtable.foldl (addMethod c) st) st

/-- machine.cpp:2659-2668: the table of an interface, each method at its offset. -/
def place (n : Nat) (ms : List Method) : List (Option Method) :=
  ms.foldl (fun l m => l.set m.offset (some m)) (List.replicate n none)

/-- machine.cpp:2732-2759: fill the method tables of the interface table. -/
def populate (w : List Class) (map : VMap) (itable : List (Nat × List (Option Method))) :
    List (Nat × List (Option Method)) :=
  itable.map fun e => (e.1, (at' w e.1).vtable.map (vget map))

/-- machine.cpp:2427-2452: the table from which the method table starts, that of the superclass. -/
def superTable (w : List Class) (f : ClassFile) : List (Option Method) :=
  if f.iface then [] else match f.super with | some s => (at' w s).vtable | none => []

/-- the state of `parseMethodTable` after the declared methods (machine.cpp:2416-2620) -/
def declaredState (w : List Class) (f : ClassFile) : St :=
  let c := w.length
  let sv := superTable w f
  let st : St := ⟨(sv.filterMap id).map (fun m => (m, m)), sv.length, [], 0⟩
  f.methods.foldl (declare c) st

/-- `parseMethodTable` (machine.cpp:2416-2760) on top of `parseInterfaceTable`: the class at the next
position. -/
def load (ord : List (Nat × Nat) → List (Nat × Nat)) (w : List Class) (f : ClassFile) : Class :=
  let c := w.length
  let itable := parseInterfaceTable ord w f
  let sv := superTable w f
  let st := declaredState w f
  let (map, count, abs) := addInterfaceMethods w c itable (st.map, st.count, [])
  if st.declared = 0 ∧ abs = [] ∧ f.iface = false then
    match f.super with
    | some s =>
      if (at' w s).itable ≠ [] ∧ itable.length = (at' w s).itable.length then
        ⟨f.name, f.iface, f.super, (at' w s).itable, sv⟩
      else ⟨f.name, f.iface, f.super, populate w map itable, sv⟩
    | none => ⟨f.name, f.iface, f.super, itable, []⟩
  else if count ≠ 0 then
    if f.iface then ⟨f.name, f.iface, f.super, itable, place count (map.map (·.1))⟩
    else ⟨f.name, f.iface, f.super, populate w map itable,
          sv.map (vget map) ++ st.new.map some ++ abs.map some⟩
  else ⟨f.name, f.iface, f.super, itable, []⟩

/-- load classes one after the other -/
def loadAll (ord : List (Nat × Nat) → List (Nat × Nat)) (fs : List ClassFile) : List Class :=
  fs.foldl (fun w f => w ++ [load ord w f]) []

/-! ### Calls -/

/-- machine.h:2689 `findVirtualMethod`. -/
def findVirtualMethod (w : List Class) (m : Method) (c : Nat) : Option Method :=
  ((at' w c).vtable[m.offset]?).join

/-- machine.h:2695-2715 `findInterfaceMethod`; `none` is `abort`. -/
def findInterfaceMethod (w : List Class) (m : Method) (c : Nat) : Option Method :=
  match (at' w c).itable.find? (fun e => e.1 == m.cls) with
  | some e => (e.2[m.offset]?).join
  | none => none

/-! ### Assignability -/

/-- A class pointer: a loaded class, a primitive type, or the array class of an element class. An
array class is made only once for each element class (`findLoadedClass` in machine.cpp:3065). -/
inductive Ty where
  | cls (i : Nat)
  | prim (p : Nat)
  | arr (e : Ty)
  deriving DecidableEq, Repr

/-- the classes that the virtual machine knows by itself: `java.lang.Object`, `java.io.Serializable`,
`java.lang.Cloneable` -/
structure Known where
  object : Nat
  serializable : Nat
  cloneable : Nat

/-- `flags() & ACC_INTERFACE`; `makeArrayClass` (machine.cpp:2955) does not copy it -/
def isInterface (w : List Class) : Ty → Bool
  | .cls i => (at' w i).iface
  | _ => false

/-- `vmFlags() & PrimitiveFlag` -/
def isPrimitive : Ty → Bool
  | .prim _ => true
  | _ => false

/-- the interfaces in `interfaceTable()`; machine.cpp:3259 `makeArrayInterfaceTable`. -/
def interfacesOf (w : List Class) (k : Known) : Ty → List Nat
  | .cls i => (at' w i).itable.map (·.1)
  | .prim _ => []
  | .arr _ => [k.serializable, k.cloneable]

/-- `super()`; machine.cpp:2971 for arrays. -/
def superOf (w : List Class) (k : Known) : Ty → Option Ty
  | .cls i => (at' w i).super.map .cls
  | .prim _ => none
  | .arr _ => some (.cls k.object)

/-- machine.cpp:4624-4630: the walk over the superclasses. The fuel bounds the walk. -/
def hasSuper (w : List Class) (k : Known) (a : Ty) : Nat → Option Ty → Bool
  | 0, _ => false
  | _ + 1, none => false
  | n + 1, some b => b = a || hasSuper w k a n (superOf w k b)

/-- machine.cpp:4591-4634 `isAssignableFrom`. -/
def isAssignableFrom (w : List Class) (k : Known) (a b : Ty) : Bool :=
  if a = b then true
  else if isInterface w a then
    match a with
    | .cls i => (interfacesOf w k b).contains i
    | _ => false
  else match a with
    | .arr ea =>
      match b with
      | .arr eb => isAssignableFrom w k ea eb
      | _ => false
    | _ => if isPrimitive a = isPrimitive b then hasSuper w k a (w.length + 2) (some b) else false

/-- machine.cpp:4636-4643 `instanceOf`; the object is given by its class. -/
def instanceOf (w : List Class) (k : Known) (c : Ty) (o : Option Ty) : Bool :=
  match o with
  | none => false
  | some b => isAssignableFrom w k c b

end Avian.Dispatch
