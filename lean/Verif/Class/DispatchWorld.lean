import Verif.Class.DispatchLemmas

/-! Every class of a loaded program has well formed tables (`Verif.Class.Dispatch`). -/

namespace Avian.Dispatch

/-! ### lists -/

theorem subset_of_length {α} [DecidableEq α] : ∀ {a b : List α}, a.Nodup → (∀ x ∈ a, x ∈ b) → b.length ≤ a.length →
    ∀ x ∈ b, x ∈ a := by
  intro a
  induction a with
  | nil =>
    intro b _ _ hl x hx
    cases b with
    | nil => cases hx
    | cons => simp at hl
  | cons y a ih =>
    intro b hn hs hl x hx
    rw [List.nodup_cons] at hn
    have hy : y ∈ b := hs y List.mem_cons_self
    by_cases hxy : x = y
    · subst hxy; exact List.mem_cons_self
    · refine List.mem_cons_of_mem _ (ih (b := b.erase y) hn.2 ?_ ?_ x ?_)
      · intro z hz
        have : z ≠ y := by rintro rfl; exact hn.1 hz
        exact (List.mem_erase_of_ne this).2 (hs z (List.mem_cons_of_mem _ hz))
      · rw [List.length_erase_of_mem hy]
        simp at hl
        omega
      · exact (List.mem_erase_of_ne hxy).2 hx

/-! ### the interfaces of a class -/

/-- names of classes are different -/
def Inj (w : List Class) : Prop := ∀ i j, i < w.length → j < w.length → (at' w i).name = (at' w j).name → i = j

structure MapOK (w : List Class) (m : List (Nat × Nat)) : Prop where
  name : ∀ e ∈ m, e.2 < w.length ∧ e.1 = (at' w e.2).name
  nodup : (m.map (·.2)).Nodup

theorem insertMaybe_ok {w m i} (hw : Inj w) (h : MapOK w m) (hi : i < w.length) :
    MapOK w (insertMaybe m (at' w i).name i) ∧
    ∀ x, x ∈ (insertMaybe m (at' w i).name i).map (·.2) ↔ x ∈ m.map (·.2) ∨ x = i := by
  unfold insertMaybe
  by_cases ha : (m.any fun e => e.1 == (at' w i).name) = true
  · rw [if_pos ha]
    refine ⟨h, fun x => ⟨.inl, ?_⟩⟩
    rintro (hx | rfl)
    · exact hx
    · obtain ⟨e, he, hn⟩ := List.any_eq_true.1 ha
      have hn := eq_of_beq hn
      obtain ⟨h1, h2⟩ := h.name e he
      have := hw e.2 x h1 hi (h2.symm.trans hn)
      exact List.mem_map.2 ⟨e, he, this⟩
  · rw [if_neg ha]
    have hni : i ∉ m.map (·.2) := by
      intro hm
      obtain ⟨e, he, rfl⟩ := List.mem_map.1 hm
      exact ha (List.any_eq_true.2 ⟨e, he, by simp [(h.name e he).2]⟩)
    refine ⟨⟨?_, ?_⟩, ?_⟩
    · intro e he
      rcases List.mem_append.1 he with he | he
      · exact h.name e he
      · simp at he; subst he; exact ⟨hi, rfl⟩
    · rw [List.map_append, List.nodup_append]
      refine ⟨h.nodup, by simp, ?_⟩
      intro a ha' b hb
      simp at hb; subst hb
      rintro rfl
      exact hni ha'
    · intro x; simp

theorem addInterfaces_aux {w} (hw : Inj w) : ∀ (it : List (Nat × List (Option Method))) {m}, MapOK w m →
    (∀ e ∈ it, e.1 < w.length) →
    let m' := it.foldl (fun map e => insertMaybe map (at' w e.1).name e.1) m
    MapOK w m' ∧ ∀ x, x ∈ m'.map (·.2) ↔ x ∈ m.map (·.2) ∨ x ∈ it.map (·.1) := by
  intro it
  induction it with
  | nil => intro m h _; exact ⟨h, fun x => by simp⟩
  | cons e it ih =>
    intro m h hb
    obtain ⟨h1, h2⟩ := insertMaybe_ok hw h (hb e List.mem_cons_self)
    obtain ⟨h3, h4⟩ := ih h1 (fun e he => hb e (List.mem_cons_of_mem _ he))
    refine ⟨h3, fun x => ?_⟩
    rw [List.foldl_cons, h4, h2, List.map_cons, List.mem_cons, or_assoc]

theorem ifaces_aux {w} (hw : Inj w) (hb : ∀ c, ∀ e ∈ (at' w c).itable, e.1 < w.length) :
    ∀ (is : List Nat) {m}, MapOK w m → (∀ i ∈ is, i < w.length) →
    let m' := is.foldl (fun map i => addInterfaces w (at' w i) (insertMaybe map (at' w i).name i)) m
    MapOK w m' ∧ ∀ x, x ∈ m'.map (·.2) ↔
      x ∈ m.map (·.2) ∨ x ∈ is ∨ ∃ j ∈ is, x ∈ (at' w j).itable.map (·.1) := by
  intro is
  induction is with
  | nil => intro m h _; exact ⟨h, fun x => by simp⟩
  | cons i is ih =>
    intro m h hi
    obtain ⟨h1, h2⟩ := insertMaybe_ok hw h (hi i List.mem_cons_self)
    obtain ⟨h3, h4⟩ := addInterfaces_aux hw (at' w i).itable h1 (hb i)
    obtain ⟨h5, h6⟩ := ih h3 (fun j hj => hi j (List.mem_cons_of_mem _ hj))
    refine ⟨h5, fun x => ?_⟩
    rw [List.foldl_cons]
    have h6 := h6 x
    rw [h4, h2] at h6
    refine Iff.trans h6 ?_
    constructor
    · rintro (((h | h) | h) | h | ⟨j, h, h'⟩)
      · exact .inl h
      · exact .inr (.inl (h ▸ List.mem_cons_self))
      · exact .inr (.inr ⟨i, List.mem_cons_self, h⟩)
      · exact .inr (.inl (List.mem_cons_of_mem _ h))
      · exact .inr (.inr ⟨j, List.mem_cons_of_mem _ h, h'⟩)
    · rintro (h | h | ⟨j, h, h'⟩)
      · exact .inl (.inl (.inl h))
      · rcases List.mem_cons.1 h with h | h
        · exact .inl (.inl (.inr h))
        · exact .inr (.inl h)
      · rcases List.mem_cons.1 h with h | h
        · subst h; exact .inl (.inr h')
        · exact .inr (.inr ⟨j, h, h'⟩)

theorem interfaceMap_ok {w f} (hw : Inj w) (hb : ∀ c, ∀ e ∈ (at' w c).itable, e.1 < w.length)
    (hi : ∀ i ∈ f.ifaces, i < w.length) :
    MapOK w (interfaceMap w f) ∧ ∀ x, x ∈ (interfaceMap w f).map (·.2) ↔
      (∃ s, f.super = some s ∧ x ∈ (at' w s).itable.map (·.1)) ∨ x ∈ f.ifaces ∨
      ∃ j ∈ f.ifaces, x ∈ (at' w j).itable.map (·.1) := by
  have h0 : MapOK w [] := ⟨by simp, by simp⟩
  unfold interfaceMap
  cases hs : f.super with
  | none =>
    obtain ⟨h1, h2⟩ := ifaces_aux hw hb f.ifaces h0 hi
    refine ⟨h1, fun x => ?_⟩
    rw [h2]; simp
  | some s =>
    obtain ⟨h3, h4⟩ := addInterfaces_aux hw (at' w s).itable h0 (hb s)
    obtain ⟨h1, h2⟩ := ifaces_aux hw hb f.ifaces h3 hi
    refine ⟨h1, fun x => ?_⟩
    refine Iff.trans (h2 x) ?_
    rw [h4]; simp

/-! ### one class -/

structure ClassOK (w : List Class) (c : Nat) (f : ClassFile) : Prop where
  name : (at' w c).name = f.name
  iface : (at' w c).iface = f.iface
  super : (at' w c).super = f.super
  small : ∀ e ∈ (at' w c).itable, e.1 < c
  itNodup : ((at' w c).itable.map (·.1)).Nodup
  has : ∀ x, x ∈ (at' w c).itable.map (·.1) ↔
    (∃ s, f.super = some s ∧ x ∈ (at' w s).itable.map (·.1)) ∨ x ∈ f.ifaces ∨
      ∃ j ∈ f.ifaces, x ∈ (at' w j).itable.map (·.1)
  good : Good (at' w c).vtable
  declared : ∀ mf ∈ f.methods, mf.virt = true →
    ∃ o, lookup (at' w c).vtable mf.key = some ⟨mf.key, o, c, mf.code⟩
  inherited : ∀ k, k ∉ vkeys f.methods → ∀ m, lookup (superTable w f) k = some m →
    lookup (at' w c).vtable k = some m
  slots : ∀ (j : Nat) m, (superTable w f)[j]? = some (some m) → ∃ m', (at' w c).vtable[j]? = some (some m') ∧ m'.key = m.key
  source : ∀ k m, lookup (at' w c).vtable k = some m → k ∈ vkeys f.methods ∨
    lookup (superTable w f) k = some m ∨
    (lookup (superTable w f) k = none ∧ m.cls = c ∧
      ∃ e ∈ (at' w c).itable, ∃ m0, some m0 ∈ (at' w e.1).vtable ∧ m0.key = k ∧ m0.code = m.code)
  all : ∀ e ∈ (at' w c).itable, ∀ m, some m ∈ (at' w e.1).vtable → (lookup (at' w c).vtable m.key).isSome = true
  rows : f.iface = false → ∀ e ∈ (at' w c).itable,
    e.2 = (at' w e.1).vtable.map (fun x => x.bind fun m => lookup (at' w c).vtable m.key)

theorem at_append {w : List Class} {x i} (h : i < w.length) : at' (w ++ [x]) i = at' w i := by
  simp [at', List.getElem?_append_left h]

theorem at_new {w : List Class} {x} : at' (w ++ [x]) w.length = x := by simp [at']

structure FileOK (n : Nat) (f : ClassFile) : Prop where
  super : ∀ s, f.super = some s → s < n
  ifaces : ∀ i ∈ f.ifaces, i < n
  keys : (vkeys f.methods).Nodup

theorem superTable_append {w : List Class} {x f} (hf : FileOK w.length f) : superTable (w ++ [x]) f = superTable w f := by
  unfold superTable
  cases hs : f.super with
  | none => rfl
  | some s => simp only [at_append (hf.super s hs)]

theorem classOK_append {w : List Class} {x c f} (hc : c < w.length) (hf : FileOK c f) (h : ClassOK w c f) :
    ClassOK (w ++ [x]) c f := by
  have hst : superTable (w ++ [x]) f = superTable w f :=
    superTable_append ⟨fun s hs => Nat.lt_trans (hf.super s hs) hc, fun i hi => Nat.lt_trans (hf.ifaces i hi) hc, hf.keys⟩
  have hlt : ∀ e ∈ (at' w c).itable, at' (w ++ [x]) e.1 = at' w e.1 :=
    fun e he => at_append (Nat.lt_trans (h.small e he) hc)
  refine ⟨?_, ?_, ?_, ?_, ?_, ?_, ?_, ?_, ?_, ?_, ?_, ?_, ?_⟩ <;> simp only [at_append hc, hst]
  · exact h.name
  · exact h.iface
  · exact h.super
  · exact h.small
  · exact h.itNodup
  · intro y
    rw [h.has]
    constructor
    · rintro (⟨s, h1, h2⟩ | h1 | ⟨j, h1, h2⟩)
      · exact .inl ⟨s, h1, by rw [at_append (Nat.lt_trans (hf.super s h1) hc)]; exact h2⟩
      · exact .inr (.inl h1)
      · exact .inr (.inr ⟨j, h1, by rw [at_append (Nat.lt_trans (hf.ifaces j h1) hc)]; exact h2⟩)
    · rintro (⟨s, h1, h2⟩ | h1 | ⟨j, h1, h2⟩)
      · rw [at_append (Nat.lt_trans (hf.super s h1) hc)] at h2
        exact .inl ⟨s, h1, h2⟩
      · exact .inr (.inl h1)
      · rw [at_append (Nat.lt_trans (hf.ifaces j h1) hc)] at h2
        exact .inr (.inr ⟨j, h1, h2⟩)
  · exact h.good
  · exact h.declared
  · exact h.inherited
  · exact h.slots
  · intro k m hm
    rcases h.source k m hm with h1 | h1 | ⟨h0, h1, e, he, h2⟩
    · exact .inl h1
    · exact .inr (.inl h1)
    · exact .inr (.inr ⟨h0, h1, e, he, by rw [hlt e he]; exact h2⟩)
  · intro e he m hm
    rw [hlt e he] at hm
    exact h.all e he m hm
  · intro hi e he
    rw [hlt e he]
    exact h.rows hi e he

/-- the class that `load` makes, with one description for all its cases -/
theorem load_desc (ord : List (Nat × Nat) → List (Nat × Nat)) {w : List Class} {f : ClassFile}
    (hg : ∀ c, Good (at' w c).vtable) (hf : FileOK w.length f)
    (hb : f.iface = true → (load ord w f).vtable.length ≤ 65536) :
    ∃ (m1 map : VMap) (abs : List Method),
      (load ord w f).name = f.name ∧ (load ord w f).iface = f.iface ∧ (load ord w f).super = f.super ∧
      VOK ((superTable w f).filterMap id |>.map fun m => (m, m)) (superTable w f).length ∧
      (∃ st, DOK w.length ((superTable w f).filterMap id |>.map fun m => (m, m)) f.methods st ∧ st.map = m1) ∧
      (∃ n, AOK w.length m1 (fun x => ∃ e ∈ parseInterfaceTable ord w f, some x ∈ (at' w e.1).vtable) (map, n, abs)) ∧
      (load ord w f).vtable = map.map (fun e => some e.2) ∧
      ((load ord w f).itable = (if f.iface then parseInterfaceTable ord w f else populate w map (parseInterfaceTable ord w f)) ∨
        (f.iface = false ∧ ∃ s, f.super = some s ∧ (parseInterfaceTable ord w f).length = (at' w s).itable.length ∧
          (load ord w f).itable = (at' w s).itable ∧ (load ord w f).vtable = (at' w s).vtable)) := by
  have hgs : Good (superTable w f) := by
    unfold superTable
    split
    · exact good_nil
    · split
      · exact hg _
      · exact good_nil
  obtain ⟨hv0, hv1⟩ := good_init hgs
  generalize hm0 : ((superTable w f).filterMap id |>.map fun m => (m, m)) = m0 at hv0 hv1
  have hd0 : DOK w.length m0 [] ⟨m0, (superTable w f).length, [], 0⟩ :=
    ⟨hv0, by simp, by simp, by simp, rfl, by simp, fun _ _ => rfl, fun _ => ⟨rfl, rfl⟩⟩
  have hd := declares_ok f.methods hd0 (by simpa using hf.keys)
  simp only [List.nil_append] at hd
  have hst : declaredState w f = f.methods.foldl (declare w.length) ⟨m0, (superTable w f).length, [], 0⟩ := by
    rw [← hm0]; rfl
  rw [← hst] at hd
  have ha0 : AOK w.length (declaredState w f).map (fun _ => False) ((declaredState w f).map, (declaredState w f).count, []) :=
    ⟨hd.vok, by simp, by simp, fun _ h => h.elim⟩
  have ha := addInterfaceMethods_ok (w := w) (parseInterfaceTable ord w f) ha0
  simp only [false_or] at ha
  generalize hr : addInterfaceMethods w w.length (parseInterfaceTable ord w f) ((declaredState w f).map, (declaredState w f).count, []) = r at ha
  obtain ⟨map, n, abs⟩ := r
  refine ⟨(declaredState w f).map, map, abs, ?_⟩
  have happ : map = (declaredState w f).map ++ abs.map (fun x => (x, x)) := ha.app
  have hlen : map.length = n := ha.vok.len
  -- the general shape of the table
  have hvt : (superTable w f).map (vget map) ++ (declaredState w f).new.map some ++ abs.map some =
      map.map (fun e => some e.2) := by
    have hle : m0.length ≤ (declaredState w f).map.length := by
      have := congrArg List.length hd.fst
      simp at this; omega
    have h1 : map.map (fun e => some e.2) = ((declaredState w f).map.take m0.length).map (fun e => some e.2) ++
        (declaredState w f).new.map some ++ abs.map some := by
      have h2 : (declaredState w f).map = (declaredState w f).map.take m0.length ++ (declaredState w f).new.map (fun x => (x, x)) := by
        rw [← hd.new, List.take_append_drop]
      rw [happ]
      conv => lhs; rw [h2]
      simp [List.append_assoc, Function.comp_def]
    rw [h1]
    congr 2
    rw [← hv1, List.map_map]
    have h3 : ((declaredState w f).map.take m0.length).map (·.1) = m0.map (·.1) := by
      rw [List.map_take, hd.fst, List.take_left']
      simp
    apply List.ext_getElem?
    intro i
    have h4 : (((declaredState w f).map.take m0.length).map (·.1))[i]? = (m0.map (·.1))[i]? := by rw [h3]
    simp only [List.getElem?_map] at h4 ⊢
    cases h5 : m0[i]? with
    | none =>
      rw [h5] at h4
      simp only [Option.map_none, Option.map_eq_none_iff] at h4
      simp [h4]
    | some e =>
      rw [h5] at h4
      simp only [Option.map_some, Option.map_eq_some_iff] at h4
      obtain ⟨e', h6, h7⟩ := h4
      rw [h6]
      simp only [Option.map_some, Function.comp, vget, Option.bind_some]
      have h8 : e' ∈ map := by
        rw [happ]
        exact List.mem_append_left _ (List.mem_of_mem_take (List.mem_of_getElem? h6))
      have h9 := vfind_mem ha.vok.nodup h8
      have h10 : e.2 = e.1 := by
        have := List.mem_of_getElem? h5
        rw [← hm0] at this
        obtain ⟨m, _, rfl⟩ := List.mem_map.1 this
        rfl
      rw [h10, ← h7, h9]; rfl
  have hpop : map = [] → populate w map (parseInterfaceTable ord w f) =
      if f.iface then populate w map (parseInterfaceTable ord w f) else parseInterfaceTable ord w f := by
    intro hm
    subst hm
    cases hi : f.iface with
    | true => rfl
    | false =>
      simp only [Bool.false_eq_true, if_false, populate, parseInterfaceTable, List.map_map, hi]
      apply List.map_congr_left
      intro e _
      simp only [Function.comp, Prod.mk.injEq, true_and]
      rw [← List.map_const']
      apply List.map_congr_left
      intro x _
      cases x <;> rfl
  unfold load at hb ⊢
  simp only [hr] at hb ⊢
  by_cases h1 : (declaredState w f).declared = 0 ∧ abs = [] ∧ f.iface = false
  · simp only [if_pos h1] at hb ⊢
    obtain ⟨h2, h3, h4⟩ := h1
    have hvk : vkeys f.methods = [] := by
      have := hd.declared
      rw [h2] at this
      exact List.eq_nil_of_length_eq_zero this.symm
    obtain ⟨he1, he2⟩ := hd.empty hvk
    have hmm : map = m0 := by rw [happ, he1, h3]; simp
    cases hs : f.super with
    | some s =>
      have hss : superTable w f = (at' w s).vtable := by simp [superTable, h4, hs]
      dsimp only
      by_cases h5 : (at' w s).itable ≠ [] ∧ (parseInterfaceTable ord w f).length = (at' w s).itable.length
      · rw [if_pos h5]
        exact ⟨rfl, rfl, rfl, hv0, ⟨_, hd, rfl⟩, ⟨n, ha⟩, by rw [hmm, hv1],
          .inr ⟨h4, s, rfl, h5.2, rfl, hss⟩⟩
      · rw [if_neg h5]
        exact ⟨rfl, rfl, rfl, hv0, ⟨_, hd, rfl⟩, ⟨n, ha⟩, by rw [hmm, hv1], .inl (by simp [h4])⟩
    | none =>
      have hm0' : m0 = [] := by rw [← hm0]; simp [superTable, hs]
      rw [hm0'] at hmm
      have := hpop hmm
      rw [h4] at this
      exact ⟨rfl, rfl, rfl, hv0, ⟨_, hd, rfl⟩, ⟨n, ha⟩, by rw [hmm]; rfl, .inl (by simp only [h4]; exact this.symm)⟩
  · simp only [if_neg h1] at hb ⊢
    by_cases hn : n ≠ 0
    · simp only [if_pos hn] at hb ⊢
      cases hi : f.iface with
      | true =>
        simp only [hi, if_true] at hb ⊢
        have hpl : ∀ n (ms : List Method), (place n ms).length = n := by
          intro n ms
          unfold place
          have : ∀ (ms : List Method) (l : List (Option Method)),
              (ms.foldl (fun l m => l.set m.offset (some m)) l).length = l.length := by
            intro ms
            induction ms with
            | nil => intro l; rfl
            | cons m ms ih => intro l; rw [List.foldl_cons, ih]; simp
          rw [this]; simp
        rw [hpl] at hb
        have hb := hb trivial
        have hplace : place n (map.map (·.1)) = (map.map (·.1)).map some := by
          apply place_eq
          · intro j m hm
            rw [List.getElem?_map, Option.map_eq_some_iff] at hm
            obtain ⟨e, he, rfl⟩ := hm
            have := ha.vok.off j e he
            have hj : j < map.length := (List.getElem?_eq_some_iff.1 he).1
            rw [this]; omega
          · simp [hlen]
        have hm0' : m0 = [] := by rw [← hm0]; simp [superTable, hi]
        have hdup : map.map (fun e => some e.2) = (map.map (·.1)).map some := by
          have h2 : (declaredState w f).map = (declaredState w f).new.map (fun x => (x, x)) := by
            have := hd.new
            rw [hm0'] at this; simpa using this
          rw [happ, h2]; simp [Function.comp_def]
        exact ⟨trivial, trivial, trivial, hv0, ⟨_, hd, rfl⟩, ⟨n, ha⟩, by rw [hplace, hdup], .inl trivial⟩
      | false =>
        exact ⟨rfl, rfl, rfl, hv0, ⟨_, hd, rfl⟩, ⟨n, ha⟩, hvt, .inl rfl⟩
    · simp only [if_neg hn] at hb ⊢
      have hmm : map = [] := by
        apply List.eq_nil_of_length_eq_zero
        rw [hlen]; omega
      have := hpop hmm
      refine ⟨trivial, trivial, trivial, hv0, ⟨_, hd, rfl⟩, ⟨n, ha⟩, by rw [hmm]; rfl, .inl ?_⟩
      cases hi : f.iface with
      | true => rfl
      | false =>
        rw [hi] at this
        exact this.symm

theorem entry_dup (l : List Method) (k) : entry (l.map fun x => (x, x)) k = l.find? (fun m => m.key == k) := by
  simp only [entry, vfind, List.find?_map, Option.map_map]
  have : ((fun x : Method × Method => x.2) ∘ fun x : Method => (x, x)) = id := rfl
  rw [this, Option.map_id]; rfl

theorem lookup_mem {vt k m} (h : lookup vt k = some m) : some m ∈ vt ∧ m.key = k := by
  have h1 := List.mem_of_find?_eq_some h
  have h2 := List.find?_some h
  rw [List.mem_filterMap] at h1
  obtain ⟨x, hx, he⟩ := h1
  simp only [id] at he
  exact ⟨he ▸ hx, by simpa using h2⟩

/-- every class of a world is in order -/
structure WorldOK (fs : List ClassFile) (w : List Class) : Prop where
  len : w.length = fs.length
  cls : ∀ c f, fs[c]? = some f → ClassOK w c f

theorem at_out {w : List Class} {c} (h : w.length ≤ c) : at' w c = noClass := by
  simp [at', List.getElem?_eq_none h]

theorem world_cases {fs w} (h : WorldOK fs w) (c) : (∃ f, fs[c]? = some f ∧ ClassOK w c f) ∨ at' w c = noClass := by
  cases hc : fs[c]? with
  | some f => exact .inl ⟨f, rfl, h.cls c f hc⟩
  | none =>
    refine .inr (at_out ?_)
    rw [h.len]; exact List.getElem?_eq_none_iff.1 hc

theorem world_good {fs w} (h : WorldOK fs w) (c) : Good (at' w c).vtable := by
  rcases world_cases h c with ⟨f, _, hc⟩ | hc
  · exact hc.good
  · rw [hc]; exact good_nil

theorem world_small {fs w} (h : WorldOK fs w) (c) : ∀ e ∈ (at' w c).itable, e.1 < w.length := by
  rcases world_cases h c with ⟨f, hf, hc⟩ | hc
  · intro e he
    have h1 := hc.small e he
    have h2 : c < fs.length := (List.getElem?_eq_some_iff.1 hf).1
    rw [h.len]; exact Nat.lt_trans h1 h2
  · rw [hc]; intro e he; cases he

theorem world_itNodup {fs w} (h : WorldOK fs w) (c) : ((at' w c).itable.map (·.1)).Nodup := by
  rcases world_cases h c with ⟨f, hf, hc⟩ | hc
  · exact hc.itNodup
  · rw [hc]; simp [noClass]

theorem getElem?_some_at {w : List Class} {fs : List ClassFile} (h : w.length = fs.length) {c f} (hf : fs[c]? = some f) : c < w.length := by
  rw [h]; exact (List.getElem?_eq_some_iff.1 hf).1

theorem classOK_new {ord : List (Nat × Nat) → List (Nat × Nat)} (hord : ∀ l, (ord l).Perm l) {fs w f}
    (h : WorldOK fs w) (hf : FileOK w.length f) (hw : Inj w)
    (hsuper : ∀ s fs', f.super = some s → fs[s]? = some fs' → fs'.iface = false)
    (hb : f.iface = true → (load ord w f).vtable.length ≤ 65536) :
    ClassOK (w ++ [load ord w f]) w.length f := by
  obtain ⟨m1, map, abs, hn, hi, hs, hv0, ⟨st, hd, hst⟩, ⟨n, ha⟩, hvt, hit⟩ := load_desc ord (world_good h) hf hb
  subst hst
  obtain ⟨hm1, hm2⟩ := interfaceMap_ok hw (world_small h) hf.ifaces
  -- interfaces in the fresh table
  have hpit : (parseInterfaceTable ord w f).map (·.1) = (ord (interfaceMap w f)).map (·.2) := by
    simp [parseInterfaceTable, List.map_map, Function.comp_def]
  have hperm : ((parseInterfaceTable ord w f).map (·.1)).Perm ((interfaceMap w f).map (·.2)) := by
    rw [hpit]; exact (hord _).map _
  have hpop : (populate w map (parseInterfaceTable ord w f)).map (·.1) = (parseInterfaceTable ord w f).map (·.1) := by
    simp [populate, List.map_map, Function.comp_def]
  have hkeys : ∀ x, x ∈ (load ord w f).itable.map (·.1) ↔ x ∈ (interfaceMap w f).map (·.2) := by
    intro x
    rcases hit with hit | ⟨_, s, hs', hl, hit, _⟩
    · rw [hit]
      have : x ∈ (if f.iface then parseInterfaceTable ord w f else populate w map (parseInterfaceTable ord w f)).map (·.1) ↔
          x ∈ (parseInterfaceTable ord w f).map (·.1) := by
        cases f.iface <;> simp [hpop]
      rw [this]; exact hperm.mem_iff
    · rw [hit]
      have hsub : ∀ x ∈ (at' w s).itable.map (·.1), x ∈ (interfaceMap w f).map (·.2) :=
        fun x hx => (hm2 x).2 (.inl ⟨s, hs', hx⟩)
      refine ⟨hsub x, subset_of_length (world_itNodup h s) hsub ?_ x⟩
      have := hperm.length_eq
      simp only [List.length_map] at this ⊢
      omega
  have hnod : ((load ord w f).itable.map (·.1)).Nodup := by
    rcases hit with hit | ⟨_, s, hs', hl, hit, _⟩
    · rw [hit]
      have : (if f.iface then parseInterfaceTable ord w f else populate w map (parseInterfaceTable ord w f)).map (·.1) =
          (parseInterfaceTable ord w f).map (·.1) := by
        cases f.iface <;> simp [hpop]
      rw [this]; exact hperm.nodup_iff.2 hm1.nodup
    · rw [hit]; exact world_itNodup h s
  have hsm : ∀ e ∈ (load ord w f).itable, e.1 < w.length := by
    intro e he
    have := (hkeys e.1).1 (List.mem_map.2 ⟨e, he, rfl⟩)
    obtain ⟨e', he', hx⟩ := List.mem_map.1 this
    rw [← hx]; exact (hm1.name e' he').1
  have hlk : ∀ k, lookup (load ord w f).vtable k = entry map k := by
    intro k; rw [hvt]; exact lookup_map ha.vok k
  have hl0 : ∀ k, lookup (superTable w f) k = entry ((superTable w f).filterMap id |>.map fun m => (m, m)) k := by
    intro k; rw [entry_dup]; rfl
  have happ : map = st.map ++ abs.map (fun x => (x, x)) := ha.app
  have hall : ∀ e ∈ (load ord w f).itable, ∀ m, some m ∈ (at' w e.1).vtable → (lookup (load ord w f).vtable m.key).isSome = true := by
    intro e he m hm
    rw [hlk]
    have : e.1 ∈ (parseInterfaceTable ord w f).map (·.1) := by
      rw [hperm.mem_iff, ← hkeys]; exact List.mem_map.2 ⟨e, he, rfl⟩
    obtain ⟨e', he', hx⟩ := List.mem_map.1 this
    exact ha.all m ⟨e', he', by rw [hx]; exact hm⟩
  have hat : ∀ e ∈ (load ord w f).itable, at' (w ++ [load ord w f]) e.1 = at' w e.1 := fun e he => at_append (hsm e he)
  refine ⟨?_, ?_, ?_, ?_, ?_, ?_, ?_, ?_, ?_, ?_, ?_, ?_, ?_⟩ <;> simp only [at_new, superTable_append hf]
  · exact hn
  · exact hi
  · exact hs
  · exact hsm
  · exact hnod
  · intro x
    rw [hkeys, hm2]
    constructor
    · rintro (⟨s, h1, h2⟩ | h1 | ⟨j, h1, h2⟩)
      · exact .inl ⟨s, h1, by rw [at_append (hf.super s h1)]; exact h2⟩
      · exact .inr (.inl h1)
      · exact .inr (.inr ⟨j, h1, by rw [at_append (hf.ifaces j h1)]; exact h2⟩)
    · rintro (⟨s, h1, h2⟩ | h1 | ⟨j, h1, h2⟩)
      · rw [at_append (hf.super s h1)] at h2
        exact .inl ⟨s, h1, h2⟩
      · exact .inr (.inl h1)
      · rw [at_append (hf.ifaces j h1)] at h2
        exact .inr (.inr ⟨j, h1, h2⟩)
  · rw [hvt]; exact vok_map ha.vok
  · intro mf hmf hv
    obtain ⟨o, ho⟩ := hd.yes mf hmf hv
    exact ⟨o, by rw [hlk, happ, entry_append, ho]; rfl⟩
  · intro k hk m hm
    rw [hl0] at hm
    rw [hlk, happ, entry_append, hd.no k hk, hm]; rfl
  · intro j m hm
    rw [hvt]
    have h1 : ((superTable w f).filterMap id)[j]? = some m := by
      have hgs : Good (superTable w f) := by
        unfold superTable
        split
        · exact good_nil
        · split
          · exact world_good h _
          · exact good_nil
      obtain ⟨ms, hms, _⟩ := hgs
      rw [hms] at hm ⊢
      rw [filterMap_some]
      rw [List.getElem?_map, Option.map_eq_some_iff] at hm
      obtain ⟨m', h1, h2⟩ := hm
      cases h2; exact h1
    have h2 : (st.map.map (·.1))[j]? = some m := by
      rw [hd.fst, List.getElem?_append_left (by
        have := (List.getElem?_eq_some_iff.1 h1).1
        simpa using this)]
      simp [List.map_map, h1]
    rw [List.getElem?_map, Option.map_eq_some_iff] at h2
    obtain ⟨e, he, hem⟩ := h2
    have h3 : map[j]? = some e := by
      rw [happ, List.getElem?_append_left (List.getElem?_eq_some_iff.1 he).1]; exact he
    refine ⟨e.2, by simp [h3], ?_⟩
    rw [← hem]; exact (ha.vok.sec e (List.mem_of_getElem? h3)).1
  · intro k m hm
    rw [hlk, happ, entry_append] at hm
    by_cases hk : k ∈ vkeys f.methods
    · exact .inl hk
    · rw [hd.no k hk, ← hl0] at hm
      cases hl : lookup (superTable w f) k with
      | some x => rw [hl] at hm; exact .inr (.inl hm)
      | none =>
        rw [hl] at hm
        simp only [Option.none_or] at hm
        rw [entry_dup] at hm
        have h1 := List.mem_of_find?_eq_some hm
        have h2 := List.find?_some hm
        simp at h2
        obtain ⟨h3, h4, m0, ⟨e, he, h5⟩, h6, h7⟩ := ha.from' m h1
        have : e.1 ∈ (load ord w f).itable.map (·.1) := by
          rw [hkeys, ← hperm.mem_iff]; exact List.mem_map.2 ⟨e, he, rfl⟩
        obtain ⟨e', he', hx⟩ := List.mem_map.1 this
        exact .inr (.inr ⟨rfl, h3, e', he', m0, by rw [hat e' he', hx]; exact h5, h6.trans h2, h7⟩)
  · intro e he m hm
    rw [hat e he] at hm
    exact hall e he m hm
  · intro hif e he
    rw [hat e he]
    rcases hit with hit | ⟨_, s, hs', hl, hit, hvt'⟩
    · rw [hit, hif] at he
      simp only [Bool.false_eq_true, if_false, populate, List.mem_map] at he
      obtain ⟨e', _, rfl⟩ := he
      apply List.map_congr_left
      intro x _
      cases x with
      | none => rfl
      | some m => simp only [vget, Option.bind_some, hlk]; rfl
    · rw [hit] at he
      rcases world_cases h s with ⟨f', hf', hc⟩ | hc
      · rw [hvt']
        have := hc.rows (hsuper s f' hs' hf') e he
        exact this
      · rw [hc] at he; cases he

/-! ### programs -/

/-- A program that the loader accepts, in the order of loading. -/
structure Program (ord : List (Nat × Nat) → List (Nat × Nat)) (fs : List ClassFile) : Prop where
  /-- the hash map delivers its entries in some order -/
  order : ∀ l, (ord l).Perm l
  /-- superclasses and interfaces are loaded first; the virtual methods of a class differ in name or descriptor -/
  file : ∀ c f, fs[c]? = some f → FileOK c f
  /-- a superclass is not an interface -/
  super : ∀ (c s : Nat) (f g : ClassFile), fs[c]? = some f → f.super = some s → fs[s]? = some g → g.iface = false
  /-- what a class implements is an interface -/
  iface : ∀ (c i : Nat) (f g : ClassFile), fs[c]? = some f → i ∈ f.ifaces → fs[i]? = some g → g.iface = true
  /-- classes have different names -/
  names : (fs.map (·.name)).Nodup
  /-- the offsets of the methods of an interface fit into 16 bits -/
  fits : ∀ c ∈ loadAll ord fs, c.iface = true → c.vtable.length ≤ 65536

theorem snoc_induction {α} {P : List α → Prop} (h0 : P []) (h1 : ∀ l a, P l → P (l ++ [a])) : ∀ l, P l := by
  have : ∀ n (l : List α), l.length = n → P l := by
    intro n
    induction n with
    | zero => intro l h; rw [List.eq_nil_of_length_eq_zero h]; exact h0
    | succ n ih =>
      intro l h
      rcases List.eq_nil_or_concat l with rfl | ⟨l', a, rfl⟩
      · exact h0
      · rw [List.concat_eq_append] at h ⊢
        refine h1 l' a (ih l' ?_)
        simp at h; exact h
  exact fun l => this _ l rfl

theorem loadAll_snoc (ord fs f) : loadAll ord (fs ++ [f]) = loadAll ord fs ++ [load ord (loadAll ord fs) f] := by
  simp [loadAll]

theorem loadAll_length (ord) : ∀ fs, (loadAll ord fs).length = fs.length := by
  refine snoc_induction rfl ?_
  intro l f ih
  rw [loadAll_snoc]; simp [ih]

theorem load_iface (ord w f) : (load ord w f).iface = f.iface := by
  unfold load
  dsimp only
  split
  · split
    · split <;> rfl
    · rfl
  · split
    · split <;> rfl
    · rfl

theorem program_prefix {ord fs f} (h : Program ord (fs ++ [f])) : Program ord fs := by
  have hp : ∀ {c : Nat} {g : ClassFile}, fs[c]? = some g → (fs ++ [f])[c]? = some g := by
    intro c g hg
    rw [List.getElem?_append_left (List.getElem?_eq_some_iff.1 hg).1]; exact hg
  refine ⟨h.order, fun c g hg => h.file c g (hp hg), fun c s f g h1 h2 h3 => h.super c s f g (hp h1) h2 (hp h3),
    fun c i f g h1 h2 h3 => h.iface c i f g (hp h1) h2 (hp h3), ?_, ?_⟩
  · have := h.names
    rw [List.map_append, List.nodup_append] at this
    exact this.1
  · intro c hc
    refine h.fits c ?_
    rw [loadAll_snoc]; exact List.mem_append_left _ hc

theorem world_name {fs w} (h : WorldOK fs w) {c f} (hf : fs[c]? = some f) : (at' w c).name = f.name := (h.cls c f hf).name

theorem world_ok {ord} : ∀ fs, Program ord fs → WorldOK fs (loadAll ord fs) := by
  refine snoc_induction (fun _ => ⟨rfl, by simp⟩) ?_
  intro fs f ih hp
  have hp' := program_prefix hp
  have hw := ih hp'
  have hl := loadAll_length ord fs
  rw [loadAll_snoc]
  refine ⟨by simp [hl], ?_⟩
  have hff : FileOK (loadAll ord fs).length f := by
    rw [hl]; exact hp.file fs.length f (by simp)
  have hinj : Inj (loadAll ord fs) := by
    intro i j hi hj he
    rw [hl] at hi hj
    have h1 := world_name hw (List.getElem?_eq_getElem hi)
    have h2 := world_name hw (List.getElem?_eq_getElem hj)
    rw [h1, h2] at he
    have hn := hp'.names
    have := (List.getElem_inj (xs := fs.map (·.name)) (h₀ := by simpa using hi) (h₁ := by simpa using hj) hn).1 (by simpa using he)
    exact this
  intro c g hg
  rcases Nat.lt_or_ge c fs.length with hc | hc
  · rw [List.getElem?_append_left hc] at hg
    exact classOK_append (by rw [hl]; exact hc) (hp'.file c g hg) (hw.cls c g hg)
  · have hc' : c = fs.length := by
      have := (List.getElem?_eq_some_iff.1 hg).1
      simp at this; omega
    subst hc'
    simp at hg; subst hg
    have := classOK_new hp.order hw hff hinj ?_ ?_
    · rwa [hl] at this
    · intro s g hs hg
      refine hp.super fs.length s f g (by simp) hs ?_
      rw [List.getElem?_append_left (List.getElem?_eq_some_iff.1 hg).1]; exact hg
    · intro hi
      refine hp.fits _ ?_ (by rw [load_iface]; exact hi)
      rw [loadAll_snoc]; simp

/-! ### tables -/

theorem good_lookup {vt} (h : Good vt) {m} : some m ∈ vt ↔ lookup vt m.key = some m := by
  constructor
  · intro hm
    obtain ⟨ms, rfl, _, hn⟩ := h
    rw [lookup, filterMap_some]
    simp only [List.mem_map, Option.some.injEq, exists_eq_right] at hm
    have hn' : ((ms.map fun x => (x, x)).map (·.1.key)).Nodup := by simpa [List.map_map, Function.comp_def] using hn
    have := vfind_mem hn' (e := (m, m)) (List.mem_map.2 ⟨m, hm, rfl⟩)
    rw [← entry_dup, entry, this]; rfl
  · intro hl; exact (lookup_mem hl).1

theorem good_at {vt} (h : Good vt) {m} (hm : some m ∈ vt) (hl : vt.length ≤ 65536) : vt[m.offset]? = some (some m) := by
  obtain ⟨ms, rfl, ho, hn⟩ := h
  simp only [List.mem_map, Option.some.injEq, exists_eq_right] at hm
  obtain ⟨j, hj⟩ := List.getElem?_of_mem hm
  have h1 := ho j m hj
  have h2 := (List.getElem?_eq_some_iff.1 hj).1
  simp at hl
  have : m.offset = j := by omega
  rw [this]; simp [hj]

theorem good_key_unique {vt} (h : Good vt) {i j : Nat} {a b : Method} (ha : vt[i]? = some (some a)) (hb : vt[j]? = some (some b))
    (hk : a.key = b.key) : i = j := by
  obtain ⟨ms, rfl, ho, hn⟩ := h
  simp only [List.getElem?_map, Option.map_eq_some_iff, Option.some.injEq, exists_eq_right] at ha hb
  have h1 := (List.getElem?_eq_some_iff.1 ha)
  have h2 := (List.getElem?_eq_some_iff.1 hb)
  obtain ⟨h1l, h1⟩ := h1
  obtain ⟨h2l, h2⟩ := h2
  exact (List.getElem_inj (xs := ms.map (·.key)) (h₀ := by simpa using h1l) (h₁ := by simpa using h2l) hn).1 (by simp [h1, h2, hk])

end Avian.Dispatch
