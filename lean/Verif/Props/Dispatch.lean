import Verif.Class.DispatchWorld

/-!
C20 (virtual dispatch), C21 (interface dispatch) and C22 (assignability).
-/

namespace Avian.Dispatch

/-! ### Specification, over the class files only -/

namespace Spec

/-- the file declares a virtual method with a key and a body -/
def Declares (fs : List ClassFile) (d k body : Nat) : Prop :=
  ∃ f, fs[d]? = some f ∧ ∃ m ∈ f.methods, m.virt = true ∧ m.key = k ∧ m.code = body

/-- `d` is `c` or a superclass of `c` -/
inductive SubClass (fs : List ClassFile) : Nat → Nat → Prop
  | refl (c) : SubClass fs c c
  | super {c f s d} : fs[c]? = some f → f.super = some s → SubClass fs s d → SubClass fs c d

/-- the most derived class that declares the key, seen from class `c`, is `d`, with body `b` -/
inductive Selects (fs : List ClassFile) (k : Nat) : Nat → Nat → Nat → Prop
  | own {c b} : Declares fs c k b → Selects fs k c c b
  | inherit {c f s d b} : (∀ b, ¬ Declares fs c k b) → fs[c]? = some f → f.iface = false → f.super = some s →
      Selects fs k s d b → Selects fs k c d b

/-- `c` implements (or, if it is an interface, extends) the interface `i`, directly or not -/
inductive Implements (fs : List ClassFile) : Nat → Nat → Prop
  | own {c f i} : fs[c]? = some f → i ∈ f.ifaces → Implements fs c i
  | super {c f s i} : fs[c]? = some f → f.super = some s → Implements fs s i → Implements fs c i
  | iface {c f j i} : fs[c]? = some f → j ∈ f.ifaces → Implements fs j i → Implements fs c i

/-- `b` is a subtype of `a`: the reflexive and transitive closure of the declared relations -/
inductive Sub (fs : List ClassFile) : Nat → Nat → Prop
  | refl (c) : Sub fs c c
  | super {b f s a} : fs[b]? = some f → f.super = some s → Sub fs s a → Sub fs b a
  | iface {b f i a} : fs[b]? = some f → i ∈ f.ifaces → Sub fs i a → Sub fs b a

/-- `b` can be assigned to `a` (JVMS 6.5, `checkcast`) -/
inductive Assignable (fs : List ClassFile) (k : Known) : Ty → Ty → Prop
  | cls {a b} : Sub fs b a → Assignable fs k (.cls a) (.cls b)
  | prim (p) : Assignable fs k (.prim p) (.prim p)
  | object (e) : Assignable fs k (.cls k.object) (.arr e)
  | serializable (e) : Assignable fs k (.cls k.serializable) (.arr e)
  | cloneable (e) : Assignable fs k (.cls k.cloneable) (.arr e)
  | arr {a b} : Assignable fs k a b → Assignable fs k (.arr a) (.arr b)

/-- what a class file has to satisfy about its superclass (JVMS 4.1): only `Object` has none, and an
interface has `Object` -/
structure Rooted (fs : List ClassFile) (k : Known) : Prop where
  object : ∃ f, fs[k.object]? = some f ∧ f.iface = false ∧ f.super = none ∧ f.ifaces = []
  serializable : ∃ f, fs[k.serializable]? = some f ∧ f.iface = true ∧ f.ifaces = []
  cloneable : ∃ f, fs[k.cloneable]? = some f ∧ f.iface = true ∧ f.ifaces = []
  super : ∀ (c : Nat) (f : ClassFile), fs[c]? = some f → c ≠ k.object → ∃ s, f.super = some s ∧ s < fs.length
  iface : ∀ (c : Nat) (f : ClassFile), fs[c]? = some f → f.iface = true → f.super = some k.object

end Spec

open Spec

variable {ord : List (Nat × Nat) → List (Nat × Nat)} {fs : List ClassFile}

/-! ### helpers -/

theorem declares_keys {f : ClassFile} {k} : k ∈ vkeys f.methods ↔ ∃ m ∈ f.methods, m.virt = true ∧ m.key = k := by
  simp only [vkeys, List.mem_map, List.mem_filter]
  constructor
  · rintro ⟨m, ⟨h1, h2⟩, h3⟩; exact ⟨m, h1, h2, h3⟩
  · rintro ⟨m, h1, h2, h3⟩; exact ⟨m, ⟨h1, h2⟩, h3⟩

theorem file_at {c f} (hp : Program ord fs) (hf : fs[c]? = some f) : ClassOK (loadAll ord fs) c f :=
  (world_ok fs hp).cls c f hf

theorem superTable_super {w : List Class} {f : ClassFile} {s} (hi : f.iface = false) (hs : f.super = some s) :
    superTable w f = (at' w s).vtable := by simp [superTable, hi, hs]

theorem selects_lookup (hp : Program ord fs) {c k d b} (h : Selects fs k c d b) :
    ∃ o, lookup (at' (loadAll ord fs) c).vtable k = some ⟨k, o, d, b⟩ := by
  induction h with
  | own h =>
    obtain ⟨f, hf, m, hm, hv, hk, hc⟩ := h
    obtain ⟨o, ho⟩ := (file_at hp hf).declared m hm hv
    rw [hk, hc] at ho
    exact ⟨o, ho⟩
  | @inherit c f s d b hn hf hi hs _ ih =>
    obtain ⟨o, ho⟩ := ih
    refine ⟨o, (file_at hp hf).inherited k ?_ _ (by rw [superTable_super hi hs]; exact ho)⟩
    intro hk
    obtain ⟨m, h1, h2, h3⟩ := declares_keys.1 hk
    exact hn m.code ⟨f, hf, m, h1, h2, h3, rfl⟩

theorem subClass_iface (hp : Program ord fs) {c d f} (h : SubClass fs c d) (hf : fs[c]? = some f) (hi : f.iface = false) :
    ∀ g, fs[d]? = some g → g.iface = false := by
  induction h generalizing f with
  | refl => intro g hg; rw [hf] at hg; cases hg; exact hi
  | @super c f' s d hf' hs _ ih =>
    obtain rfl : f = f' := Option.some.inj (hf.symm.trans hf')
    have hl := (hp.file c f hf).super s hs
    have hc := (List.getElem?_eq_some_iff.1 hf).1
    have hsl : s < fs.length := Nat.lt_trans hl hc
    exact ih (List.getElem?_eq_getElem hsl) (hp.super c s f _ hf hs (List.getElem?_eq_getElem hsl))

/-- slots of a superclass are kept -/
theorem subClass_slots (hp : Program ord fs) {c a f} (h : SubClass fs c a) (hf : fs[c]? = some f) (hi : f.iface = false)
    {j : Nat} {m} (hm : (at' (loadAll ord fs) a).vtable[j]? = some (some m)) :
    ∃ m', (at' (loadAll ord fs) c).vtable[j]? = some (some m') ∧ m'.key = m.key := by
  induction h generalizing f with
  | refl => exact ⟨m, hm, rfl⟩
  | @super c f' s d hf' hs _ ih =>
    obtain rfl : f = f' := Option.some.inj (hf.symm.trans hf')
    have hl := (hp.file c f hf).super s hs
    have hc := (List.getElem?_eq_some_iff.1 hf).1
    have hsl : s < fs.length := Nat.lt_trans hl hc
    obtain ⟨m1, h1, h2⟩ := ih (List.getElem?_eq_getElem hsl) (hp.super c s f _ hf hs (List.getElem?_eq_getElem hsl)) hm
    obtain ⟨m2, h3, h4⟩ := (file_at hp hf).slots j m1 (by rw [superTable_super hi hs]; exact h1)
    exact ⟨m2, h3, h4.trans h2⟩

theorem good_length_le {c a f} (hp : Program ord fs) (h : SubClass fs c a) (hf : fs[c]? = some f) (hi : f.iface = false) :
    (at' (loadAll ord fs) a).vtable.length ≤ (at' (loadAll ord fs) c).vtable.length := by
  rcases Nat.eq_zero_or_pos (at' (loadAll ord fs) a).vtable.length with h0 | h0
  · omega
  · obtain ⟨ms, hms, _⟩ := world_good (world_ok fs hp) a
    have hl : ms.length = (at' (loadAll ord fs) a).vtable.length := by rw [hms]; simp
    have h1 : (at' (loadAll ord fs) a).vtable[ms.length - 1]? = some (some (ms[ms.length - 1]'(by omega))) := by
      rw [hms]; simp
    obtain ⟨m', h2, _⟩ := subClass_slots hp h hf hi h1
    have := (List.getElem?_eq_some_iff.1 h2).1
    omega

/-! ### C20 -/

/-- Calling on an object of class `c` a virtual method `m` found in the table of `c` or of a superclass
`a` runs the method with the same key of the most derived class that declares one. The table of `c` must
not have more than 65536 entries (see `virtual_call_wrong_method`). -/
theorem virtual_call_partial (hp : Program ord fs) {c a f d b} (hf : fs[c]? = some f) (hi : f.iface = false)
    (hsub : SubClass fs c a) {m} (hm : some m ∈ (at' (loadAll ord fs) a).vtable)
    (hs : Selects fs m.key c d b) (hl : (at' (loadAll ord fs) c).vtable.length ≤ 65536) :
    ∃ o, findVirtualMethod (loadAll ord fs) m c = some ⟨m.key, o, d, b⟩ := by
  have hw := world_ok fs hp
  have h1 := good_at (world_good hw a) hm (Nat.le_trans (good_length_le hp hsub hf hi) hl)
  obtain ⟨m', h2, h3⟩ := subClass_slots hp hsub hf hi h1
  obtain ⟨o, ho⟩ := selects_lookup hp hs
  have h4 := (good_lookup (world_good hw c)).1 (List.mem_of_getElem? h2)
  rw [h3, ho] at h4
  cases h4
  exact ⟨o, by rw [findVirtualMethod, h2]; rfl⟩

/-- A class that selects a method has it in its table, and so has every subclass: the call of
`virtual_call_partial` always finds a slot. -/
theorem selected_in_table (hp : Program ord fs) {a k d b} (h : Selects fs k a d b) :
    ∃ m, some m ∈ (at' (loadAll ord fs) a).vtable ∧ m.key = k ∧ m.cls = d ∧ m.code = b := by
  obtain ⟨o, ho⟩ := selects_lookup hp h
  exact ⟨_, (lookup_mem ho).1, rfl, rfl, rfl⟩

/-- A slot keeps its number in all subclasses: the method in it has the same key. -/
theorem slot_kept (hp : Program ord fs) {c a f} (h : SubClass fs c a) (hf : fs[c]? = some f) (hi : f.iface = false)
    (j : Nat) (m : Method) (hm : (at' (loadAll ord fs) a).vtable[j]? = some (some m)) :
    ∃ m', (at' (loadAll ord fs) c).vtable[j]? = some (some m') ∧ m'.key = m.key := subClass_slots hp h hf hi hm

/-- Every slot is filled, and no two slots of a class have methods with the same name and descriptor. -/
theorem slots_distinct (hp : Program ord fs) (c i j : Nat) (x y : Option Method)
    (hi : (at' (loadAll ord fs) c).vtable[i]? = some x) (hj : (at' (loadAll ord fs) c).vtable[j]? = some y) :
    x.isSome ∧ y.isSome ∧ (x.map (·.key) = y.map (·.key) → i = j) := by
  have hg := world_good (world_ok fs hp) c
  have hx : x.isSome ∧ y.isSome := by
    obtain ⟨ms, hms, _⟩ := hg
    rw [hms, List.getElem?_map, Option.map_eq_some_iff] at hi hj
    obtain ⟨_, _, rfl⟩ := hi
    obtain ⟨_, _, rfl⟩ := hj
    exact ⟨rfl, rfl⟩
  refine ⟨hx.1, hx.2, ?_⟩
  cases x with
  | none => cases hx.1
  | some a =>
    cases y with
    | none => cases hx.2
    | some b =>
      intro hk
      exact good_key_unique hg hi hj (by simpa using hk)

/-! ### interfaces -/

theorem itable_implements (hp : Program ord fs) : ∀ c i, i ∈ (at' (loadAll ord fs) c).itable.map (·.1) ↔ Implements fs c i := by
  intro c
  induction c using Nat.strongRecOn with
  | ind c ih =>
    intro i
    cases hf : fs[c]? with
    | none =>
      have h1 : at' (loadAll ord fs) c = noClass := at_out (by
        rw [loadAll_length]; exact List.getElem?_eq_none_iff.1 hf)
      rw [h1]
      constructor
      · intro h; cases h
      · intro h; cases h <;> simp_all
    | some f =>
      have hl := hp.file c f hf
      rw [(file_at hp hf).has]
      constructor
      · rintro (⟨s, h1, h2⟩ | h1 | ⟨j, h1, h2⟩)
        · exact .super hf h1 ((ih s (hl.super s h1) i).1 h2)
        · exact .own hf h1
        · exact .iface hf h1 ((ih j (hl.ifaces j h1) i).1 h2)
      · intro h
        cases h with
        | own hf' h => rw [hf] at hf'; cases hf'; exact .inr (.inl h)
        | super hf' h1 h2 => rw [hf] at hf'; cases hf'; exact .inl ⟨_, h1, (ih _ (hl.super _ h1) i).2 h2⟩
        | iface hf' h1 h2 => rw [hf] at hf'; cases hf'; exact .inr (.inr ⟨_, h1, (ih _ (hl.ifaces _ h1) i).2 h2⟩)

theorem implements_iface (hp : Program ord fs) {c i} (h : Implements fs c i) : ∃ g, fs[i]? = some g ∧ g.iface = true := by
  induction h with
  | @own c f i hf hi =>
    have h1 := (hp.file c f hf).ifaces i hi
    have h2 := (List.getElem?_eq_some_iff.1 hf).1
    have h3 : i < fs.length := Nat.lt_trans h1 h2
    exact ⟨_, List.getElem?_eq_getElem h3, hp.iface c i f _ hf hi (List.getElem?_eq_getElem h3)⟩
  | super _ _ _ ih => exact ih
  | iface _ _ _ ih => exact ih

/-- every method in the table of an interface belongs to it -/
theorem iface_table_cls (hp : Program ord fs) {i g} (hg : fs[i]? = some g) (hi : g.iface = true) {m}
    (hm : some m ∈ (at' (loadAll ord fs) i).vtable) : m.cls = i := by
  have hok := file_at hp hg
  have h1 := (good_lookup hok.good).1 hm
  have hst : ∀ k, lookup (superTable (loadAll ord fs) g) k = none := by intro k; simp [superTable, hi, lookup]
  rcases hok.source _ _ h1 with h | h | ⟨_, h, _⟩
  · obtain ⟨mf, h2, h3, h4⟩ := declares_keys.1 h
    obtain ⟨o, ho⟩ := hok.declared mf h2 h3
    rw [h4, h1] at ho
    exact congrArg Method.cls (Option.some.inj ho)
  · rw [hst] at h; cases h
  · exact h

/-- An interface has in its table every method that it or one of its superinterfaces declares. -/
theorem iface_table_complete (hp : Program ord fs) {i j k b : Nat} {g : ClassFile} (hg : fs[i]? = some g) (hi : g.iface = true)
    (hj : j = i ∨ Implements fs i j) (hd : Declares fs j k b) :
    ∃ m, some m ∈ (at' (loadAll ord fs) i).vtable ∧ m.key = k ∧ m.cls = i := by
  obtain ⟨f, hf, mf, h1, h2, h3, h4⟩ := hd
  have hj' : ∃ m, lookup (at' (loadAll ord fs) i).vtable k = some m := by
    obtain ⟨o, ho⟩ := (file_at hp hf).declared mf h1 h2
    rw [h3] at ho
    rcases hj with rfl | hj
    · exact ⟨_, ho⟩
    · have := (itable_implements hp i j).2 hj
      obtain ⟨e, he, rfl⟩ := List.mem_map.1 this
      have := (file_at hp hg).all e he _ (lookup_mem ho).1
      exact Option.isSome_iff_exists.1 this
  obtain ⟨m, hm⟩ := hj'
  obtain ⟨h5, h6⟩ := lookup_mem hm
  exact ⟨m, h5, h6, iface_table_cls hp hg hi h5⟩

theorem nodup_find {l : List (Nat × List (Option Method))} (hn : (l.map (·.1)).Nodup) {e} (he : e ∈ l) :
    l.find? (fun x => x.1 == e.1) = some e := by
  induction l with
  | nil => cases he
  | cons a l ih =>
    simp only [List.map_cons, List.nodup_cons] at hn
    rw [List.find?_cons]
    rcases List.mem_cons.1 he with rfl | h
    · simp
    · have : a.1 ≠ e.1 := fun eq => hn.1 (List.mem_map.2 ⟨e, h, eq.symm⟩)
      simp only [beq_eq_false_iff_ne.2 this]
      exact ih hn.2 h

/-! ### C21 -/

/-- Calling on an object of class `c` a method `m` of an interface that `c` implements finds the method
with the same name and descriptor in the method table of `c`, which exists and is unique
(`slots_distinct`). -/
theorem interface_call_partial (hp : Program ord fs) {c f i} (hf : fs[c]? = some f) (hi : f.iface = false)
    (him : Implements fs c i) {m} (hm : some m ∈ (at' (loadAll ord fs) i).vtable) :
    ∃ m', findInterfaceMethod (loadAll ord fs) m c = some m' ∧ m'.key = m.key ∧
      some m' ∈ (at' (loadAll ord fs) c).vtable := by
  obtain ⟨g, hg, hgi⟩ := implements_iface hp him
  have hok := file_at hp hf
  have h1 := (itable_implements hp c i).2 him
  obtain ⟨e, he, rfl⟩ := List.mem_map.1 h1
  have hcls := iface_table_cls hp hg hgi hm
  obtain ⟨m', hm'⟩ := Option.isSome_iff_exists.1 (hok.all e he m hm)
  refine ⟨m', ?_, (lookup_mem hm').2, (lookup_mem hm').1⟩
  rw [findInterfaceMethod, hcls, nodup_find hok.itNodup he]
  simp only
  rw [hok.rows hi e he]
  have hfit : (at' (loadAll ord fs) e.1).vtable.length ≤ 65536 := by
    have hlt : e.1 < (loadAll ord fs).length := by
      rw [loadAll_length]; exact (List.getElem?_eq_some_iff.1 hg).1
    refine hp.fits _ ?_ (by rw [(file_at hp hg).iface]; exact hgi)
    simp [at', List.getElem?_eq_getElem hlt]
  have h2 := good_at (world_good (world_ok fs hp) e.1) hm hfit
  rw [List.getElem?_map, h2]
  simpa using hm'

/-- Interface dispatch agrees with virtual dispatch: the call through the interface runs the method that
the virtual call of the method of that name and descriptor in the class itself runs. -/
theorem interface_call_is_virtual_call_partial (hp : Program ord fs) {c f i} (hf : fs[c]? = some f) (hi : f.iface = false)
    (him : Implements fs c i) {m} (hm : some m ∈ (at' (loadAll ord fs) i).vtable)
    {mc} (hmc : some mc ∈ (at' (loadAll ord fs) c).vtable) (hk : mc.key = m.key)
    (hl : (at' (loadAll ord fs) c).vtable.length ≤ 65536) :
    findInterfaceMethod (loadAll ord fs) m c = findVirtualMethod (loadAll ord fs) mc c := by
  obtain ⟨m', h1, h2, h3⟩ := interface_call_partial hp hf hi him hm
  have hg := world_good (world_ok fs hp) c
  have h4 := (good_lookup hg).1 h3
  have h5 := (good_lookup hg).1 hmc
  rw [h2, ← hk, h5] at h4
  cases h4
  rw [h1, findVirtualMethod, good_at hg hmc hl]; rfl

/-- In particular it runs the method of the most derived class that declares one. -/
theorem interface_call_selects_partial (hp : Program ord fs) {c f i d b} (hf : fs[c]? = some f) (hi : f.iface = false)
    (him : Implements fs c i) {m} (hm : some m ∈ (at' (loadAll ord fs) i).vtable) (hs : Selects fs m.key c d b) :
    ∃ o, findInterfaceMethod (loadAll ord fs) m c = some ⟨m.key, o, d, b⟩ := by
  obtain ⟨m', h1, h2, h3⟩ := interface_call_partial hp hf hi him hm
  obtain ⟨o, ho⟩ := selects_lookup hp hs
  have := (good_lookup (world_good (world_ok fs hp) c)).1 h3
  rw [h2, ho] at this
  cases this
  exact ⟨o, h1⟩

theorem implements_trans {x y} (h : Implements fs x y) : ∀ z, Implements fs y z → Implements fs x z := by
  induction h with
  | own hf hi => intro z hz; exact .iface hf hi hz
  | super hf hs _ ih => intro z hz; exact .super hf hs (ih z hz)
  | iface hf hi _ ih => intro z hz; exact .iface hf hi (ih z hz)

theorem table_source_aux (hp : Program ord fs) : ∀ c m, some m ∈ (at' (loadAll ord fs) c).vtable →
    ∃ d, Declares fs d m.key m.code ∧
      ((SubClass fs c d ∧ ∀ g, fs[c]? = some g → g.iface = true → d = c) ∨ Implements fs c d) := by
  intro c
  induction c using Nat.strongRecOn with
  | ind c ih =>
    intro m hm
    rcases world_cases (world_ok fs hp) c with ⟨f, hf, hok⟩ | h0
    · have h1 := (good_lookup hok.good).1 hm
      rcases hok.source _ _ h1 with h | h | ⟨_, _, e, he, m0, h2, h3, h4⟩
      · obtain ⟨mf, h2, h3, h4⟩ := declares_keys.1 h
        obtain ⟨o, ho⟩ := hok.declared mf h2 h3
        rw [h4, h1] at ho
        have hc := congrArg Method.code (Option.some.inj ho)
        exact ⟨c, ⟨f, hf, mf, h2, h3, h4, hc.symm⟩, .inl ⟨.refl c, fun _ _ _ => rfl⟩⟩
      · have hi : f.iface = false := by
          cases hi : f.iface with
          | false => rfl
          | true => simp [superTable, hi, lookup] at h
        cases hs : f.super with
        | none => simp [superTable, hi, hs, lookup] at h
        | some s =>
          rw [superTable_super hi hs] at h
          obtain ⟨d, h2, h3⟩ := ih s ((hp.file c f hf).super s hs) m (lookup_mem h).1
          refine ⟨d, h2, ?_⟩
          rcases h3 with ⟨h3, _⟩ | h3
          · refine .inl ⟨.super hf hs h3, fun g hg hgi => ?_⟩
            rw [hf] at hg; cases hg
            rw [hi] at hgi; cases hgi
          · exact .inr (.super hf hs h3)
      · obtain ⟨d, h5, h6⟩ := ih e.1 (hok.small e he) m0 h2
        rw [h3, h4] at h5
        have hee : Implements fs c e.1 := (itable_implements hp c e.1).1 (List.mem_map.2 ⟨e, he, rfl⟩)
        refine ⟨d, h5, .inr ?_⟩
        rcases h6 with ⟨_, h6⟩ | h6
        · obtain ⟨g, hg, hgi⟩ := implements_iface hp hee
          rw [h6 g hg hgi]; exact hee
        · exact implements_trans hee _ h6
    · rw [h0] at hm; cases hm

/-- No body comes from nowhere: a method in the table of a class has the body of a method with the same
name and descriptor declared in the class, a superclass, or an interface of the class. -/
theorem table_source (hp : Program ord fs) (c m) (hm : some m ∈ (at' (loadAll ord fs) c).vtable) :
    ∃ d, Declares fs d m.key m.code ∧ (SubClass fs c d ∨ Implements fs c d) := by
  obtain ⟨d, h1, h2⟩ := table_source_aux hp c m hm
  exact ⟨d, h1, h2.imp (·.1) id⟩

/-! ### C22 -/

theorem implements_sub {b a} (h : Implements fs b a) : Sub fs b a := by
  induction h with
  | own hf hi => exact .iface hf hi (.refl _)
  | super hf hs _ ih => exact .super hf hs ih
  | iface hf hi _ ih => exact .iface hf hi ih

theorem subClass_sub {b a} (h : SubClass fs b a) : Sub fs b a := by
  induction h with
  | refl => exact .refl _
  | super hf hs _ ih => exact .super hf hs ih

theorem sub_trans {a b c} (h : Sub fs a b) (h' : Sub fs b c) : Sub fs a c := by
  induction h with
  | refl => exact h'
  | super hf hs _ ih => exact .super hf hs (ih h')
  | iface hf hi _ ih => exact .iface hf hi (ih h')

theorem sub_iface (hp : Program ord fs) {b a g} (h : Sub fs b a) (hg : fs[a]? = some g) (hi : g.iface = true) :
    b = a ∨ Implements fs b a := by
  induction h with
  | refl => exact .inl rfl
  | @super b f s a hf hs _ ih =>
    right
    rcases ih hg with rfl | h
    · have := hp.super b s f g hf hs hg
      rw [this] at hi; cases hi
    · exact .super hf hs h
  | iface hf hs _ ih =>
    right
    rcases ih hg with rfl | h
    · exact .own hf hs
    · exact .iface hf hs h

theorem sub_object (hp : Program ord fs) {k} (hr : Rooted fs k) : ∀ c, c < fs.length → SubClass fs c k.object := by
  intro c
  induction c using Nat.strongRecOn with
  | ind c ih =>
    intro hc
    by_cases h : c = k.object
    · rw [h]; exact .refl _
    · have hf := List.getElem?_eq_getElem hc
      obtain ⟨s, h1, h2⟩ := hr.super c _ hf h
      exact .super hf h1 (ih s ((hp.file c _ hf).super s h1) h2)

theorem object_sub (hp : Program ord fs) {k} (hr : Rooted fs k) {a} (h : Sub fs k.object a) : a = k.object := by
  obtain ⟨f, hf, _, hs, hi⟩ := hr.object
  cases h with
  | refl => rfl
  | super hf' hs' _ => rw [hf] at hf'; cases hf'; rw [hs] at hs'; cases hs'
  | iface hf' hi' _ => rw [hf] at hf'; cases hf'; rw [hi] at hi'; cases hi'

theorem iface_sub_class (hp : Program ord fs) {k} (hr : Rooted fs k) {b a} (h : Sub fs b a) :
    ∀ f, fs[b]? = some f → f.iface = true → (∀ g, fs[a]? = some g → g.iface = false) → a = k.object := by
  induction h with
  | refl => intro f hf hi ha; have := ha f hf; rw [this] at hi; cases hi
  | super hf hs h ih =>
    intro f' hf' hi ha
    rw [hf] at hf'; cases hf'
    have := hr.iface _ _ hf hi
    rw [hs] at this; cases this
    exact object_sub hp hr h
  | @iface b f i a hf hi' h ih =>
    intro f' hf' hi ha
    have h1 := (hp.file b f hf).ifaces i hi'
    have h2 := (List.getElem?_eq_some_iff.1 hf).1
    have h3 : i < fs.length := Nat.lt_trans h1 h2
    exact ih _ (List.getElem?_eq_getElem h3) (hp.iface b i f _ hf hi' (List.getElem?_eq_getElem h3)) ha

theorem sub_class (hp : Program ord fs) {k} (hr : Rooted fs k) {b a} (h : Sub fs b a)
    (ha : ∀ g, fs[a]? = some g → g.iface = false) : SubClass fs b a := by
  induction h with
  | refl => exact .refl _
  | super hf hs _ ih => exact .super hf hs (ih ha)
  | @iface b f i a hf hi' h ih =>
    have h1 := (hp.file b f hf).ifaces i hi'
    have h2 := (List.getElem?_eq_some_iff.1 hf).1
    have h3 : i < fs.length := Nat.lt_trans h1 h2
    have := iface_sub_class hp hr h _ (List.getElem?_eq_getElem h3) (hp.iface b i f _ hf hi' (List.getElem?_eq_getElem h3)) ha
    rw [this]
    exact sub_object hp hr b h2

theorem at_iface (hp : Program ord fs) (c) : (at' (loadAll ord fs) c).iface = true ↔ ∃ g, fs[c]? = some g ∧ g.iface = true := by
  rcases world_cases (world_ok fs hp) c with ⟨f, hf, hok⟩ | h0
  · rw [hok.iface]
    constructor
    · intro h; exact ⟨f, hf, h⟩
    · rintro ⟨g, hg, h⟩; rw [hf] at hg; cases hg; exact h
  · rw [h0]
    constructor
    · intro h; cases h
    · rintro ⟨g, hg, h⟩
      rw [← (file_at hp hg).iface, h0] at h
      exact h

theorem at_super (hp : Program ord fs) (c s) : (at' (loadAll ord fs) c).super = some s ↔ ∃ g, fs[c]? = some g ∧ g.super = some s := by
  rcases world_cases (world_ok fs hp) c with ⟨f, hf, hok⟩ | h0
  · rw [hok.super]
    constructor
    · intro h; exact ⟨f, hf, h⟩
    · rintro ⟨g, hg, h⟩; rw [hf] at hg; cases hg; exact h
  · rw [h0]
    constructor
    · intro h; cases h
    · rintro ⟨g, hg, h⟩
      rw [← (file_at hp hg).super, h0] at h
      exact h

theorem hasSuper_cls (hp : Program ord fs) (k a) : ∀ n b, b < n →
    (hasSuper (loadAll ord fs) k (.cls a) n (some (.cls b)) = true ↔ SubClass fs b a) := by
  intro n
  induction n with
  | zero => intro b hb; omega
  | succ n ih =>
    intro b hb
    simp only [hasSuper, Bool.or_eq_true, decide_eq_true_eq]
    constructor
    · rintro (h | h)
      · cases h; exact .refl _
      · cases hs : (at' (loadAll ord fs) b).super with
        | none =>
          simp only [superOf, hs] at h
          cases n <;> simp [hasSuper] at h
        | some s =>
          obtain ⟨g, hg, hgs⟩ := (at_super hp b s).1 hs
          simp only [superOf, hs, Option.map_some] at h
          have := (hp.file b g hg).super s hgs
          exact .super hg hgs ((ih s (by omega)).1 h)
    · intro h
      cases h with
      | refl => exact .inl rfl
      | super hf hs h =>
        right
        have h1 := (at_super hp b _).2 ⟨_, hf, hs⟩
        have := (hp.file b _ hf).super _ hs
        simp only [superOf, h1, Option.map_some]
        exact (ih _ (by omega)).2 h

theorem hasSuper_prim (w k a p n) : hasSuper w k (.cls a) n (some (.prim p)) = false := by
  cases n with
  | zero => rfl
  | succ n => cases n <;> simp [hasSuper, superOf]

theorem hasSuper_fuel (hp : Program ord fs) (k a) (b) :
    (hasSuper (loadAll ord fs) k (.cls a) ((loadAll ord fs).length + 1) (some (.cls b)) = true ↔ SubClass fs b a) := by
  rcases Nat.lt_or_ge b ((loadAll ord fs).length + 1) with h | h
  · exact hasSuper_cls hp k a _ b h
  · have h1 : at' (loadAll ord fs) b = noClass := at_out (by omega)
    have h2 : fs[b]? = none := by
      rw [List.getElem?_eq_none_iff, ← loadAll_length ord fs]; omega
    simp only [hasSuper, superOf, h1, noClass, Option.map_none, Bool.or_eq_true, decide_eq_true_eq]
    constructor
    · rintro (h | h)
      · cases h; exact .refl _
      · exfalso
        revert h
        cases (loadAll ord fs).length <;> simp [hasSuper]
    · intro h
      cases h with
      | refl => exact .inl rfl
      | super hf => rw [h2] at hf; cases hf

theorem assignable_refl (k : Known) (a : Ty) : Assignable fs k a a := by
  induction a with
  | cls i => exact .cls (.refl i)
  | prim p => exact .prim p
  | arr e ih => exact .arr ih

theorem assignable_trans (hp : Program ord fs) {k} (hr : Rooted fs k) {a b c} (h : Assignable fs k a b)
    (h' : Assignable fs k b c) : Assignable fs k a c := by
  have hser : ∀ i, (∃ f, fs[i]? = some f ∧ f.iface = true ∧ f.ifaces = []) → ∀ a, Sub fs i a → a = i ∨ a = k.object := by
    rintro i ⟨f, hf, hi, hii⟩ a h
    cases h with
    | refl => exact .inl rfl
    | super hf' hs h =>
      rw [hf] at hf'; cases hf'
      have := hr.iface _ _ hf hi
      rw [hs] at this; cases this
      exact .inr (object_sub hp hr h)
    | iface hf' hi' _ => rw [hf] at hf'; cases hf'; rw [hii] at hi'; cases hi'
  induction h generalizing c with
  | cls h =>
    cases h' with
    | cls h2 => exact .cls (sub_trans h2 h)
    | object e => rw [object_sub hp hr h]; exact .object e
    | serializable e =>
      rcases hser _ hr.serializable _ h with h | h <;> rw [h]
      · exact .serializable e
      · exact .object e
    | cloneable e =>
      rcases hser _ hr.cloneable _ h with h | h <;> rw [h]
      · exact .cloneable e
      · exact .object e
  | prim p => exact h'
  | object e => cases h' with | arr h => exact .object _
  | serializable e => cases h' with | arr h => exact .serializable _
  | cloneable e => cases h' with | arr h => exact .cloneable _
  | arr h ih => cases h' with | arr h2 => exact .arr (ih h2)

/-- The test used for casts, `instanceof`, exception handlers and reflection is the subtype relation. The
classes must have different names (see `same_name_interface_lost`). -/
theorem assignable_iff_partial (hp : Program ord fs) {k} (hr : Rooted fs k) (a b : Ty) :
    isAssignableFrom (loadAll ord fs) k a b = true ↔ Assignable fs k a b := by
  induction a generalizing b with
  | prim p =>
    unfold isAssignableFrom
    by_cases h : Ty.prim p = b
    · subst h; simp [assignable_refl]
    · have h2 : ¬ Assignable fs k (.prim p) b := by intro h'; cases h'; exact h rfl
      rw [if_neg h]
      simp only [isInterface, Bool.false_eq_true, if_false]
      constructor
      · intro h'
        exfalso
        split at h'
        · rename_i h3
          cases b with
          | prim q =>
            simp only [hasSuper, superOf, Bool.or_eq_true, decide_eq_true_eq] at h'
            rcases h' with h' | h'
            · exact h h'.symm
            · revert h'; cases (loadAll ord fs).length + 1 <;> simp [hasSuper]
          | cls => cases h3
          | arr => cases h3
        · cases h'
      · intro h'; exact absurd h' h2
  | arr ea ih =>
    unfold isAssignableFrom
    by_cases h : Ty.arr ea = b
    · subst h; simp [assignable_refl]
    · rw [if_neg h]
      simp only [isInterface, Bool.false_eq_true, if_false]
      cases b with
      | arr eb =>
        simp only [ih]
        exact ⟨.arr, fun h => by cases h; assumption⟩
      | cls => exact ⟨fun h => by simp at h, fun h => by cases h⟩
      | prim => exact ⟨fun h => by simp at h, fun h => by cases h⟩
  | cls a =>
    unfold isAssignableFrom
    by_cases h : Ty.cls a = b
    · subst h; simp [assignable_refl]
    · rw [if_neg h]
      by_cases hi : isInterface (loadAll ord fs) (.cls a) = true
      · rw [if_pos hi]
        obtain ⟨g, hg, hgi⟩ := (at_iface hp a).1 hi
        simp only [List.contains_iff_mem]
        cases b with
        | cls b =>
          simp only [interfacesOf]
          rw [itable_implements hp]
          constructor
          · intro h'; exact .cls (implements_sub h')
          · intro h'
            cases h' with
            | cls h' =>
              rcases sub_iface hp h' hg hgi with h1 | h1
              · exact absurd (by rw [h1]) h
              · exact h1
        | prim => exact ⟨fun h => by simp [interfacesOf] at h, fun h => by cases h⟩
        | arr e =>
          simp only [interfacesOf, List.mem_cons, List.not_mem_nil, or_false]
          constructor
          · rintro (rfl | rfl)
            · exact .serializable e
            · exact .cloneable e
          · intro h'
            generalize hx : Ty.cls a = x at h'
            cases h' with
            | object =>
              cases hx
              obtain ⟨f, hf, hfi, _⟩ := hr.object
              rw [hf] at hg; cases hg
              rw [hfi] at hgi; cases hgi
            | serializable => cases hx; exact .inl rfl
            | cloneable => cases hx; exact .inr rfl
            | arr => cases hx
      · rw [if_neg hi]
        have hn : ∀ g, fs[a]? = some g → g.iface = false := by
          intro g hg
          cases hgi : g.iface with
          | false => rfl
          | true => exact absurd ((at_iface hp a).2 ⟨g, hg, hgi⟩) hi
        cases b with
        | prim p => exact ⟨fun h => by simp [isPrimitive] at h, fun h => by cases h⟩
        | cls b =>
          simp only [isPrimitive, if_true]
          have hfu : hasSuper (loadAll ord fs) k (.cls a) ((loadAll ord fs).length + 2) (some (.cls b)) = true ↔ SubClass fs b a := by
            rcases Nat.lt_or_ge b ((loadAll ord fs).length + 2) with h | h
            · exact hasSuper_cls hp k a _ b h
            · have h1 : at' (loadAll ord fs) b = noClass := at_out (by omega)
              have h2 : fs[b]? = none := by
                rw [List.getElem?_eq_none_iff, ← loadAll_length ord fs]; omega
              simp only [hasSuper, superOf, h1, noClass, Option.map_none, Bool.or_eq_true, decide_eq_true_eq]
              constructor
              · rintro (h | h)
                · cases h; exact .refl _
                · cases h
              · intro h
                cases h with
                | refl => exact .inl rfl
                | super hf => rw [h2] at hf; cases hf
          rw [hfu]
          constructor
          · intro h'; exact .cls (subClass_sub h')
          · intro h'
            cases h' with
            | cls h' => exact sub_class hp hr h' hn
        | arr e =>
          simp only [isPrimitive, if_true]
          rw [hasSuper]
          simp only [superOf, Bool.or_eq_true, decide_eq_true_eq]
          rw [hasSuper_fuel hp]
          constructor
          · rintro (h' | h')
            · cases h'
            · rw [object_sub hp hr (subClass_sub h')]; exact .object e
          · intro h'
            right
            generalize hx : Ty.cls a = x at h'
            cases h' with
            | object => cases hx; exact .refl _
            | serializable =>
              cases hx
              obtain ⟨f, hf, hfi, _⟩ := hr.serializable
              rw [hn f hf] at hfi; cases hfi
            | cloneable =>
              cases hx
              obtain ⟨f, hf, hfi, _⟩ := hr.cloneable
              rw [hn f hf] at hfi; cases hfi
            | arr => cases hx

theorem isAssignableFrom_refl (w : List Class) (k : Known) (a : Ty) : isAssignableFrom w k a a = true := by
  unfold isAssignableFrom; simp

theorem isAssignableFrom_trans_partial (hp : Program ord fs) {k} (hr : Rooted fs k) (a b c : Ty)
    (h1 : isAssignableFrom (loadAll ord fs) k a b = true) (h2 : isAssignableFrom (loadAll ord fs) k b c = true) :
    isAssignableFrom (loadAll ord fs) k a c = true := by
  rw [assignable_iff_partial hp hr] at h1 h2 ⊢
  exact assignable_trans hp hr h1 h2

/-- `instanceof` is false for null and the subtype relation otherwise. -/
theorem instanceOf_iff_partial (hp : Program ord fs) {k} (hr : Rooted fs k) (c : Ty) (o : Option Ty) :
    instanceOf (loadAll ord fs) k c o = true ↔ ∃ b, o = some b ∧ Assignable fs k c b := by
  cases o with
  | none => simp [instanceOf]
  | some b => simp [instanceOf, assignable_iff_partial hp hr]

/-! ### where the code departs from the rules -/

/-- The identity is an order in which a hash map can deliver its entries. -/
theorem perm_id : ∀ l : List (Nat × Nat), (id l).Perm l := fun l => List.Perm.refl l

def badNames : List ClassFile :=
  [⟨1, false, none, [], []⟩, ⟨5, true, some 0, [], []⟩, ⟨5, true, some 0, [], []⟩, ⟨6, false, some 0, [1, 2], []⟩]

/-- The full statement of C22 fails when two interfaces have the same name, which different class
loaders allow: the interface table is keyed by name, so the second interface is lost. -/
theorem same_name_interface_lost : Spec.Implements badNames 3 2 ∧
    isAssignableFrom (loadAll id badNames) ⟨0, 1, 2⟩ (.cls 2) (.cls 3) = false :=
  ⟨.own (f := ⟨6, false, some 0, [1, 2], []⟩) rfl (by decide), by decide +kernel⟩

def defaults : List ClassFile :=
  [⟨1, false, none, [], []⟩,
   ⟨2, true, some 0, [], [⟨7, true, 100⟩]⟩,
   ⟨3, true, some 0, [1], [⟨7, true, 200⟩]⟩,
   ⟨4, false, some 0, [1], []⟩,
   ⟨5, false, some 3, [2], []⟩]

/-- A class that gets a default method from an interface copies it into its table, and a subclass that
implements an interface with a more specific default method keeps the copy (JVMS 5.4.6 selects the
method of the most specific interface). -/
theorem default_method_not_most_specific : Spec.Implements defaults 4 2 ∧ Spec.Implements defaults 2 1 ∧
    Spec.Declares defaults 2 7 200 ∧
    ((lookup (at' (loadAll id defaults) 4).vtable 7).map (·.code)) = some 100 :=
  ⟨.own (f := ⟨5, false, some 3, [2], []⟩) rfl (by decide), .own (f := ⟨3, true, some 0, [1], [⟨7, true, 200⟩]⟩) rfl (by decide),
   ⟨_, rfl, ⟨7, true, 200⟩, by simp, rfl, rfl, rfl⟩, by decide +kernel⟩

/-- The full statement of C20 fails for a class with more than 65536 virtual methods: the offset of a
method is kept in 16 bits, so a call of the method in slot 65536 runs the method in slot 0. -/
theorem virtual_call_wrong_method (hp : Program ord fs) (c : Nat)
    (hl : 65536 < (at' (loadAll ord fs) c).vtable.length) :
    ∃ m m0, (at' (loadAll ord fs) c).vtable[65536]? = some (some m) ∧
      findVirtualMethod (loadAll ord fs) m c = some m0 ∧ m0.key ≠ m.key := by
  have hg := world_good (world_ok fs hp) c
  obtain ⟨ms, hms, ho, hn⟩ := hg
  have hl' : 65536 < ms.length := by rw [hms] at hl; simpa using hl
  have h0 : 0 < ms.length := by omega
  have e1 : ms[65536]? = some ms[65536] := List.getElem?_eq_getElem hl'
  have e0 : ms[0]? = some ms[0] := List.getElem?_eq_getElem h0
  refine ⟨ms[65536], ms[0], by rw [hms]; simp [e1], ?_, ?_⟩
  · rw [findVirtualMethod, ho 65536 _ e1, hms]
    simp [e0]
  · intro hk
    have := (List.getElem_inj (xs := ms.map (·.key)) (i := 0) (j := 65536) (h₀ := by simpa using h0) (h₁ := by simpa using hl') hn).1
      (by simpa using hk)
    omega

def wideMethods (a n : Nat) : List MethodFile := (List.range' a n).map fun k => ⟨k, true, k⟩

/-- a class with 40000 methods and a subclass with 30000 more -/
def wide : List ClassFile :=
  [⟨1, false, none, [], wideMethods 0 40000⟩, ⟨2, false, some 0, [], wideMethods 40000 30000⟩]

theorem vkeys_wide (a n) : vkeys (wideMethods a n) = List.range' a n := by
  have : ∀ l : List Nat, vkeys (l.map fun k => ⟨k, true, k⟩) = l := by
    intro l
    induction l with
    | nil => rfl
    | cons a l ih =>
      simp only [vkeys, List.map_cons, List.filter_cons, if_true] at ih ⊢
      rw [ih]
  exact this _

theorem loadAll_iface (ord) : ∀ fs, ∀ c ∈ loadAll ord fs, ∃ f ∈ fs, c.iface = f.iface := by
  refine snoc_induction (by intro c hc; cases hc) ?_
  intro l f ih c hc
  rw [loadAll_snoc] at hc
  rcases List.mem_append.1 hc with hc | hc
  · obtain ⟨g, h1, h2⟩ := ih c hc
    exact ⟨g, List.mem_append_left _ h1, h2⟩
  · simp only [List.mem_singleton] at hc
    subst hc
    exact ⟨f, by simp, load_iface _ _ _⟩

theorem wide_program : Program id wide := by
  have hc : ∀ (c : Nat) (f : ClassFile), wide[c]? = some f →
      (c = 0 ∧ f = ⟨1, false, none, [], wideMethods 0 40000⟩) ∨ (c = 1 ∧ f = ⟨2, false, some 0, [], wideMethods 40000 30000⟩) := by
    intro c f h
    match c, h with
    | 0, h => left; exact ⟨rfl, (Option.some.inj h).symm⟩
    | 1, h => right; exact ⟨rfl, (Option.some.inj h).symm⟩
    | n + 2, h => cases h
  refine ⟨perm_id, ?_, ?_, ?_, ?_, ?_⟩
  · intro c f h
    rcases hc c f h with ⟨rfl, rfl⟩ | ⟨rfl, rfl⟩
    · exact ⟨fun s h => (by cases h), fun i h => (by cases h), by rw [vkeys_wide]; exact List.nodup_range'⟩
    · exact ⟨fun s h => (by cases h; decide), fun i h => (by cases h), by rw [vkeys_wide]; exact List.nodup_range'⟩
  · intro c s f g h1 h2 h3
    rcases hc s g h3 with ⟨rfl, rfl⟩ | ⟨rfl, rfl⟩ <;> rfl
  · intro c i f g h1 h2 h3
    rcases hc c f h1 with ⟨rfl, rfl⟩ | ⟨rfl, rfl⟩ <;> cases h2
  · show [1, 2].Nodup
    decide
  · intro c hc' hi
    obtain ⟨f, hf, he⟩ := loadAll_iface id wide c hc'
    rw [he] at hi
    obtain ⟨j, hj⟩ := List.getElem?_of_mem hf
    rcases hc j f hj with ⟨_, rfl⟩ | ⟨_, rfl⟩ <;> cases hi

theorem nodup_length {a b : List Nat} (hn : a.Nodup) (hs : ∀ x ∈ a, x ∈ b) : a.length ≤ b.length := by
  induction a generalizing b with
  | nil => simp
  | cons y a ih =>
    rw [List.nodup_cons] at hn
    have hy := hs y List.mem_cons_self
    have := ih (b := b.erase y) hn.2 (by
      intro z hz
      have : z ≠ y := by rintro rfl; exact hn.1 hz
      exact (List.mem_erase_of_ne this).2 (hs z (List.mem_cons_of_mem _ hz)))
    rw [List.length_erase_of_mem hy] at this
    have := List.length_pos_of_mem hy
    simp; omega

/-- `virtual_call_wrong_method` applies to a program -/
theorem wide_table : 65536 < (at' (loadAll id wide) 1).vtable.length := by
  have hp := wide_program
  have hsel : ∀ k, k < 70000 → ∃ d b, Selects wide k 1 d b := by
    intro k hk
    by_cases h : k < 40000
    · refine ⟨0, k, .inherit (f := ⟨2, false, some 0, [], wideMethods 40000 30000⟩) ?_ rfl rfl rfl
        (.own ⟨⟨1, false, none, [], wideMethods 0 40000⟩, rfl, ⟨k, true, k⟩, ?_, rfl, rfl, rfl⟩)⟩
      · rintro b ⟨f, hf, m, hm, hv, hk', _⟩
        cases hf
        have : k ∈ vkeys (wideMethods 40000 30000) := declares_keys.2 ⟨m, hm, hv, hk'⟩
        rw [vkeys_wide, List.mem_range'_1] at this
        omega
      · exact List.mem_map.2 ⟨k, List.mem_range'_1.2 ⟨by omega, by omega⟩, rfl⟩
    · exact ⟨1, k, .own ⟨⟨2, false, some 0, [], wideMethods 40000 30000⟩, rfl, ⟨k, true, k⟩,
        List.mem_map.2 ⟨k, List.mem_range'_1.2 ⟨by omega, by omega⟩, rfl⟩, rfl, rfl, rfl⟩⟩
  obtain ⟨ms, hms, _, hn⟩ := world_good (world_ok wide hp) 1
  have hle : (List.range 70000).length ≤ (ms.map (·.key)).length := by
    apply nodup_length List.nodup_range
    intro k hk
    obtain ⟨d, b, h⟩ := hsel k (List.mem_range.1 hk)
    obtain ⟨m, h1, h2, _⟩ := selected_in_table hp h
    rw [hms] at h1
    simp only [List.mem_map, Option.some.injEq, exists_eq_right] at h1
    exact List.mem_map.2 ⟨m, h1, h2⟩
  rw [hms]
  simp only [List.length_range, List.length_map] at hle ⊢
  omega

/-! ### examples -/

/-- `Object { hashCode }`, `Serializable`, `Cloneable`, `interface Run { run }`, `interface Both extends
Run { both }`, `class A implements Run { run, x }`, `abstract class B extends A implements Both { x }`,
`class C extends B { both, hashCode }` -/
def sample : List ClassFile :=
  [⟨1, false, none, [], [⟨10, true, 1⟩]⟩,
   ⟨2, true, some 0, [], []⟩,
   ⟨3, true, some 0, [], []⟩,
   ⟨4, true, some 0, [], [⟨11, true, 0⟩]⟩,
   ⟨5, true, some 0, [3], [⟨12, true, 0⟩]⟩,
   ⟨6, false, some 0, [3], [⟨11, true, 2⟩, ⟨13, true, 3⟩, ⟨99, false, 9⟩]⟩,
   ⟨7, false, some 5, [4], [⟨13, true, 4⟩]⟩,
   ⟨8, false, some 6, [], [⟨12, true, 5⟩, ⟨10, true, 6⟩]⟩]

def sampleKnown : Known := ⟨0, 1, 2⟩

instance (n f) : Decidable (FileOK n f) :=
  decidable_of_iff ((∀ s ∈ f.super, s < n) ∧ (∀ i ∈ f.ifaces, i < n) ∧ (vkeys f.methods).Nodup)
    ⟨fun ⟨a, b, c⟩ => ⟨a, b, c⟩, fun h => ⟨h.super, h.ifaces, h.keys⟩⟩

theorem sample_cases {P : Nat → ClassFile → Prop} (h : ∀ c (hc : c < 8), P c (sample[c]'hc)) :
    ∀ c f, sample[c]? = some f → P c f := by
  intro c f hf
  obtain ⟨h1, h2⟩ := List.getElem?_eq_some_iff.1 hf
  rw [← h2]; exact h c h1

theorem sample_program : Program id sample := by
  refine ⟨perm_id, sample_cases (by decide), ?_, ?_, by decide, by decide +kernel⟩
  · intro c s f g h1 h2 h3
    have := sample_cases (P := fun _ f => ∀ s ∈ f.super, ∀ g ∈ sample[s]?, g.iface = false) (by decide) c f h1
    exact this s h2 g h3
  · intro c i f g h1 h2 h3
    have := sample_cases (P := fun _ f => ∀ s ∈ f.ifaces, ∀ g ∈ sample[s]?, g.iface = true) (by decide) c f h1
    exact this i h2 g h3

theorem sample_rooted : Rooted sample sampleKnown := by
  refine ⟨⟨_, rfl, rfl, rfl, rfl⟩, ⟨_, rfl, rfl, rfl⟩, ⟨_, rfl, rfl, rfl⟩, ?_, ?_⟩
  · intro c f hf
    have := sample_cases (P := fun c f => c ≠ 0 → f.super.isSome ∧ ∀ s ∈ f.super, s < 8) (by decide) c f hf
    intro hc
    obtain ⟨h1, h2⟩ := this hc
    obtain ⟨s, hs⟩ := Option.isSome_iff_exists.1 h1
    exact ⟨s, hs, h2 s hs⟩
  · exact sample_cases (by decide)

/-- class 7 inherits `x` (13) from class 6, which overrides that of class 5 -/
theorem sample_selects : Selects sample 13 7 6 4 := by
  refine .inherit ?_ rfl rfl rfl (.own ⟨_, rfl, ⟨13, true, 4⟩, by simp, rfl, rfl, rfl⟩)
  rintro b ⟨f, hf, m, hm, hv, hk, _⟩
  cases hf
  simp at hm
  rcases hm with rfl | rfl <;> cases hk

theorem sample_sub : SubClass sample 7 5 := .super rfl rfl (.super rfl rfl (.refl _))

example : ∃ o, findVirtualMethod (loadAll id sample) ⟨13, 2, 5, 3⟩ 7 = some ⟨13, o, 6, 4⟩ :=
  virtual_call_partial sample_program rfl rfl sample_sub (m := ⟨13, 2, 5, 3⟩) (by decide +kernel) sample_selects (by decide +kernel)

example : ∃ m, some m ∈ (at' (loadAll id sample) 7).vtable ∧ m.key = 13 ∧ m.cls = 6 ∧ m.code = 4 :=
  selected_in_table sample_program sample_selects

example : ∃ m', (at' (loadAll id sample) 7).vtable[2]? = some (some m') ∧ m'.key = 13 :=
  slot_kept sample_program sample_sub rfl rfl 2 ⟨13, 2, 5, 3⟩ (by decide +kernel)

example := slots_distinct sample_program 7 1 2 (some ⟨11, 1, 5, 2⟩) (some ⟨13, 2, 6, 4⟩) (by decide +kernel) (by decide +kernel)

theorem sample_implements : Implements sample 7 4 := .super rfl rfl (.own rfl (by simp))

/-- `both` of class 7 through `Both`, `run` of class 5 through `Both`, which has a copy of it -/
example : ∃ o, findInterfaceMethod (loadAll id sample) ⟨12, 0, 4, 0⟩ 7 = some ⟨12, o, 7, 5⟩ :=
  interface_call_selects_partial sample_program rfl rfl sample_implements (m := ⟨12, 0, 4, 0⟩) (by decide +kernel)
    (.own ⟨_, rfl, ⟨12, true, 5⟩, by simp, rfl, rfl, rfl⟩)

example : findInterfaceMethod (loadAll id sample) ⟨11, 1, 4, 0⟩ 7 = findVirtualMethod (loadAll id sample) ⟨11, 1, 5, 2⟩ 7 :=
  interface_call_is_virtual_call_partial sample_program rfl rfl sample_implements (m := ⟨11, 1, 4, 0⟩) (by decide +kernel)
    (mc := ⟨11, 1, 5, 2⟩) (by decide +kernel) rfl (by decide +kernel)

example := interface_call_partial sample_program rfl rfl sample_implements (m := ⟨11, 1, 4, 0⟩) (by decide +kernel)

example : ∃ m, some m ∈ (at' (loadAll id sample) 4).vtable ∧ m.key = 11 ∧ m.cls = 4 :=
  iface_table_complete sample_program (j := 3) (b := 0) rfl rfl (.inr (.own rfl (by simp)))
    ⟨_, rfl, ⟨11, true, 0⟩, by simp, rfl, rfl, rfl⟩

/-- the method `both` in the table of the abstract class 6 comes from the interface -/
example : ∃ d, Declares sample d 12 0 ∧ (SubClass sample 6 d ∨ Implements sample 6 d) :=
  table_source sample_program 6 ⟨12, 3, 6, 0⟩ (by decide +kernel)

example : isAssignableFrom (loadAll id sample) sampleKnown (.arr (.cls 3)) (.arr (.cls 7)) = true ↔
    Assignable sample sampleKnown (.arr (.cls 3)) (.arr (.cls 7)) :=
  assignable_iff_partial sample_program sample_rooted _ _

example : isAssignableFrom (loadAll id sample) sampleKnown (.arr (.cls 3)) (.arr (.cls 7)) = true := by decide +kernel
example : isAssignableFrom (loadAll id sample) sampleKnown (.arr (.cls 0)) (.arr (.prim 1)) = false := by decide +kernel
example : isAssignableFrom (loadAll id sample) sampleKnown (.arr (.cls 2)) (.arr (.arr (.prim 1))) = true := by decide +kernel

example : isAssignableFrom (loadAll id sample) sampleKnown (.cls 0) (.cls 7) = true :=
  isAssignableFrom_trans_partial sample_program sample_rooted (.cls 0) (.cls 3) (.cls 7) (by decide +kernel) (by decide +kernel)

example := (instanceOf_iff_partial sample_program sample_rooted (.cls 4) (some (.cls 7))).1 (by decide +kernel)

example := virtual_call_wrong_method wide_program 1 wide_table

end Avian.Dispatch
