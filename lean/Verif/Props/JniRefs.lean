import Verif.Interp.JniRefs

/-
C102: a local reference leads to its object until it is deleted or its frame ends.
-/
namespace Avian.JniRefs

/-! ### What native code may rely on -/

/-- A frame of local references as the specification of JNI describes it: that of a call of a native method, or one pushed by it; the references
(with their objects) that were given in it and not deleted; and the addresses of the references there were when it began. -/
structure Scope where
  native : Bool
  held : List (Nat × Nat)
  below : List Nat

/-- A reference to the object is valid. -/
def Live (sc : List Scope) (a o : Nat) : Prop := ∃ s ∈ sc, (a, o) ∈ s.held

/-- What native code may do, with the newest frame first; the oldest frame is not ended.  References are deleted in the frame that they were given in. -/
def Legal (sc : List Scope) : Op → Prop
  | .make _ _ => True
  | .delete none => True
  | .delete (some a) => ∃ s rest o, sc = s :: rest ∧ (a, o) ∈ s.held
  | .push => True
  | .call => True
  | .pop _ result => (∃ s t rest, sc = s :: t :: rest ∧ s.native = false) ∧ ∀ a, result = some a → ∃ o, Live sc a o
  | .ret result => (∃ s t rest, sc = s :: t :: rest ∧ s.native = true) ∧ ∀ a, result = some a → ∃ o, Live sc a o

/-- The allocator gives memory that is not in use. -/
def Fresh (s : State) : Op → Prop
  | .make fresh _ => ∀ r ∈ s.refs, r.addr ≠ fresh
  | .pop fresh _ => ∀ m, s.frames.head? = some m → ∀ refs, popTo m s.refs = some refs → ∀ r ∈ refs, r.addr ≠ fresh
  | _ => True

/-- The object of a valid reference. -/
def Means (sc : List Scope) (result : Option Nat) (o : Option Nat) : Prop :=
  match result with
  | none => o = none
  | some a => ∃ x, o = some x ∧ Live sc a x

/-- One more reference in the newest frame; null is not kept. -/
def hold (a o : Option Nat) : List Scope → List Scope
  | [] => []
  | s :: rest =>
    match a, o with
    | some a, some o => { s with held := (a, o) :: s.held } :: rest
    | _, _ => s :: rest

/-- What the frames are after an operation: `Next sc s op res sc'`. -/
inductive Next (sc : List Scope) (s : State) : Op → Res → List Scope → Prop
  | make (fresh o a) : (a = none ↔ o = none) → Next sc s (.make fresh o) (.handle a) (hold a o sc)
  | delete_null : Next sc s (.delete none) .unit sc
  | delete (a o t rest) : sc = t :: rest → (a, o) ∈ t.held → Next sc s (.delete (some a)) .unit ({ t with held := t.held.erase (a, o) } :: rest)
  | push : Next sc s .push .unit (⟨false, [], s.refs.map (·.addr)⟩ :: sc)
  | call : Next sc s .call .unit (⟨true, [], s.refs.map (·.addr)⟩ :: sc)
  | pop (fresh result o a) : Means sc result o → (a = none ↔ o = none) → Next sc s (.pop fresh result) (.handle a) (hold a o sc.tail)
  | ret (result o) : Means sc result o → Next sc s (.ret result) (.object o) sc.tail

/-- The states native code can bring about. -/
inductive Run : State → List Scope → Prop
  | init : Run ⟨[], [], []⟩ [⟨false, [], []⟩]
  | step {s sc op s' res sc'} : Run s sc → Legal sc op → Fresh s op → step s op = some (s', res) → Next sc s op res sc' → Run s' sc'

/-! ### The invariant -/

/-- A frame together with the references made in it. -/
structure Level where
  scope : Scope
  seg : List Ref

def flat (ls : List Level) : List Ref := ls.flatMap (·.seg)

def cnt (a : Nat) (held : List (Nat × Nat)) : Nat := (held.map (·.1)).count a

theorem cnt_append (a : Nat) (x y : List (Nat × Nat)) : cnt a (x ++ y) = cnt a x + cnt a y := by
  unfold cnt; rw [List.map_append, List.count_append]

theorem cnt_cons (a : Nat) (p : Nat × Nat) (x : List (Nat × Nat)) : cnt a (p :: x) = cnt a x + if p.1 = a then 1 else 0 := by
  unfold cnt; rw [List.map_cons, List.count_cons]; simp only [beq_iff_eq]

theorem cnt_erase {a : Nat} {p : Nat × Nat} {x : List (Nat × Nat)} (h : p ∈ x) : cnt a (x.erase p) + (if p.1 = a then 1 else 0) = cnt a x := by
  have h1 : cnt a x = cnt a (p :: x.erase p) := by
    unfold cnt
    exact List.Perm.count_eq ((List.perm_cons_erase h).map _) a
  rw [h1, cnt_cons]

theorem cnt_pos {a : Nat} {p : Nat × Nat} {x : List (Nat × Nat)} (h : p ∈ x) (ha : p.1 = a) : 1 ≤ cnt a x := by
  unfold cnt
  exact List.count_pos_iff.mpr (List.mem_map.mpr ⟨p, h, ha⟩)

def Good : List (Nat × Nat) → List Level → Prop
  | _, [] => True
  | above, l :: rest =>
    (∀ r ∈ l.seg, cnt r.addr above + 1 ≤ r.count ∧ cnt r.addr (l.scope.held ++ above) ≤ r.count) ∧
    (∀ p ∈ l.scope.held, ∃ r ∈ l.seg ++ flat rest, r.addr = p.1 ∧ r.target = some p.2) ∧
    l.scope.below = (flat rest).map (·.addr) ∧
    Good (l.scope.held ++ above) rest

def marks (native : Bool) : List Level → List (Option Nat)
  | [] => []
  | [_] => []
  | l :: m :: rest =>
    if l.scope.native = native then (flat (m :: rest)).head?.map (·.addr) :: marks native (m :: rest) else marks native (m :: rest)

structure Inv (s : State) (ls : List Level) : Prop where
  refs : s.refs = flat ls
  nodup : ((flat ls).map (·.addr)).Nodup
  frames : s.frames = marks false ls
  calls : s.calls = marks true ls
  good : Good [] ls
  some : ls ≠ []

/-- The same change of all references. -/
def mapL (f : Ref → Ref) (ls : List Level) : List Level := ls.map fun l => { l with seg := l.seg.map f }

theorem flat_cons (l : Level) (ls : List Level) : flat (l :: ls) = l.seg ++ flat ls := by
  unfold flat; rw [List.flatMap_cons]

theorem flat_mapL (f : Ref → Ref) (ls : List Level) : flat (mapL f ls) = (flat ls).map f := by
  induction ls with
  | nil => rfl
  | cons l ls ih =>
    show flat ({ l with seg := l.seg.map f } :: mapL f ls) = _
    rw [flat_cons, flat_cons, ih, List.map_append]

theorem map_addr {f : Ref → Ref} (hf : ∀ r, (f r).addr = r.addr) (refs : List Ref) : (refs.map f).map (·.addr) = refs.map (·.addr) := by
  rw [List.map_map]
  apply List.map_congr_left
  intro r _
  exact hf r

theorem marks_mapL {f : Ref → Ref} (hf : ∀ r, (f r).addr = r.addr) (n : Bool) : ∀ ls, marks n (mapL f ls) = marks n ls
  | [] => rfl
  | [_] => rfl
  | l :: m :: rest => by
    have ih := marks_mapL hf n (m :: rest)
    show marks n ({ l with seg := l.seg.map f } :: mapL f (m :: rest)) = _
    have e : mapL f (m :: rest) = { m with seg := m.seg.map f } :: mapL f rest := rfl
    rw [e] at ih ⊢
    unfold marks
    rw [ih, ← e, flat_mapL, ← List.head?_map, map_addr hf, List.head?_map]

theorem good_map {f : Ref → Ref} (hf : ∀ r, (f r).addr = r.addr) (ht : ∀ r, (f r).target = r.target) : ∀ (ls : List Level) (above above' : List (Nat × Nat)),
    (∀ r ∈ flat ls, cnt r.addr above' + r.count ≤ cnt r.addr above + (f r).count) → Good above ls → Good above' (mapL f ls)
  | [], _, _, _, _ => trivial
  | l :: rest, above, above', h, hg => by
    obtain ⟨h1, h2, h3, h4⟩ := hg
    rw [flat_cons] at h
    show Good above' ({ l with seg := l.seg.map f } :: mapL f rest)
    refine ⟨?_, ?_, ?_, ?_⟩
    · intro r hr
      obtain ⟨r0, hr0, rfl⟩ := List.mem_map.mp hr
      have a1 := h1 r0 hr0
      have a2 := h r0 (List.mem_append.mpr (Or.inl hr0))
      simp only [cnt_append, hf] at a1 a2 ⊢
      omega
    · intro p hp
      obtain ⟨r, hr, e1, e2⟩ := h2 p hp
      refine ⟨f r, ?_, by rw [hf]; exact e1, by rw [ht]; exact e2⟩
      rw [flat_mapL, ← List.map_append]
      exact List.mem_map.mpr ⟨r, hr, rfl⟩
    · show l.scope.below = _
      rw [flat_mapL, map_addr hf]; exact h3
    · apply good_map hf ht rest _ _ _ h4
      intro r hr
      have a2 := h r (List.mem_append.mpr (Or.inr hr))
      show cnt r.addr (l.scope.held ++ above') + _ ≤ _
      simp only [cnt_append]
      omega

theorem mapL_id (ls : List Level) : mapL id ls = ls := by
  unfold mapL
  conv => rhs; rw [← List.map_id ls]
  apply List.map_congr_left
  intro l _
  simp only [List.map_id, id]

theorem good_mono {ls : List Level} {above above' : List (Nat × Nat)} (h : ∀ r ∈ flat ls, cnt r.addr above' ≤ cnt r.addr above) (hg : Good above ls) :
    Good above' ls := by
  rw [← mapL_id ls]
  apply good_map (fun _ => rfl) (fun _ => rfl) ls above above' _ hg
  intro r hr
  have := h r hr
  show _ + r.count ≤ _ + r.count
  omega

theorem good_live : ∀ {ls : List Level} {above : List (Nat × Nat)}, Good above ls → ∀ {l}, l ∈ ls → ∀ {p}, p ∈ l.scope.held →
    ∃ r ∈ flat ls, r.addr = p.1 ∧ r.target = some p.2
  | [], _, _, _, hl, _, _ => absurd hl List.not_mem_nil
  | m :: rest, above, hg, l, hl, p, hp => by
    obtain ⟨_, h2, _, h4⟩ := hg
    rw [flat_cons]
    rcases List.mem_cons.mp hl with rfl | hl
    · exact h2 p hp
    · obtain ⟨r, hr, e⟩ := good_live h4 hl hp
      exact ⟨r, List.mem_append.mpr (Or.inr hr), e⟩

theorem nodup_inj {refs : List Ref} (h : (refs.map (·.addr)).Nodup) {a b : Ref} (ha : a ∈ refs) (hb : b ∈ refs) (e : a.addr = b.addr) : a = b := by
  induction refs with
  | nil => exact absurd ha List.not_mem_nil
  | cons r refs ih =>
    rw [List.map_cons, List.nodup_cons] at h
    rcases List.mem_cons.mp ha with ea | ha' <;> rcases List.mem_cons.mp hb with eb | hb'
    · rw [ea, eb]
    · exact absurd (List.mem_map.mpr ⟨b, hb', by rw [← ea, e]⟩) h.1
    · exact absurd (List.mem_map.mpr ⟨a, ha', by rw [← eb, e]⟩) h.1
    · exact ih h.2 ha' hb'

theorem deref_ok {refs : List Ref} (h : (refs.map (·.addr)).Nodup) {r : Ref} (hr : r ∈ refs) : deref r.addr refs = some r.target := by
  unfold deref
  cases hfnd : refs.find? (fun x => decide (x.addr = r.addr)) with
  | none =>
    have := List.find?_eq_none.mp hfnd r hr
    simp only [decide_eq_true_eq, not_true_eq_false] at this
  | some x =>
    have e := List.find?_some hfnd
    have hx := List.mem_of_find?_eq_some hfnd
    simp only [decide_eq_true_eq] at e
    rw [nodup_inj h hx hr e]; rfl

def acq (a : Nat) (r : Ref) : Ref := if r.addr = a then { r with count := r.count + 1 } else r
def dec (a : Nat) (r : Ref) : Ref := if r.addr = a then { r with count := r.count - 1 } else r

theorem acq_addr (a : Nat) (r : Ref) : (acq a r).addr = r.addr := by unfold acq; by_cases h : r.addr = a <;> simp only [h, if_true, if_false]
theorem acq_target (a : Nat) (r : Ref) : (acq a r).target = r.target := by unfold acq; by_cases h : r.addr = a <;> simp only [h, if_true, if_false]
theorem acq_count (a : Nat) (r : Ref) : (acq a r).count = r.count + if r.addr = a then 1 else 0 := by
  unfold acq; by_cases h : r.addr = a <;> simp only [h, if_true, if_false, Nat.add_zero]
theorem dec_addr (a : Nat) (r : Ref) : (dec a r).addr = r.addr := by unfold dec; by_cases h : r.addr = a <;> simp only [h, if_true, if_false]
theorem dec_target (a : Nat) (r : Ref) : (dec a r).target = r.target := by unfold dec; by_cases h : r.addr = a <;> simp only [h, if_true, if_false]
theorem dec_count (a : Nat) (r : Ref) : (dec a r).count = r.count - if r.addr = a then 1 else 0 := by
  unfold dec; by_cases h : r.addr = a <;> simp only [h, if_true, if_false, Nat.sub_zero]

theorem map_other {f : Nat → Ref → Ref} {a : Nat} (hf : ∀ r, r.addr ≠ a → f a r = r) {refs : List Ref} (h : ∀ r ∈ refs, r.addr ≠ a) : refs.map (f a) = refs := by
  conv => rhs; rw [← List.map_id refs]
  apply List.map_congr_left
  intro r hr
  exact hf r (h r hr)

theorem release_dec {a : Nat} : ∀ {refs : List Ref}, (refs.map (·.addr)).Nodup → ∀ {r}, r ∈ refs → r.addr = a → r.count ≠ 1 → release a refs = some (refs.map (dec a))
  | [], _, _, hr, _, _ => absurd hr List.not_mem_nil
  | x :: refs, hn, r, hr, ha, hc => by
    rw [List.map_cons, List.nodup_cons] at hn
    unfold release
    by_cases hx : x.addr = a
    · have e : r = x := by
        rcases List.mem_cons.mp hr with h | h
        · exact h
        · exact absurd (List.mem_map.mpr ⟨r, h, ha.trans hx.symm⟩) hn.1
      subst e
      rw [if_pos hx, if_neg hc, List.map_cons]
      rw [map_other (f := dec) (fun r h => by unfold dec; rw [if_neg h]) (fun y hy hya => hn.1 (List.mem_map.mpr ⟨y, hy, hya.trans hx.symm⟩))]
      unfold dec
      rw [if_pos hx]
    · have hr' : r ∈ refs := by
        rcases List.mem_cons.mp hr with h | h
        · exact absurd (h ▸ ha) hx
        · exact h
      rw [if_neg hx, release_dec hn.2 hr' ha hc, List.map_cons]
      unfold dec
      rw [if_neg hx]; rfl

theorem filter_other {a : Nat} {refs : List Ref} (h : ∀ r ∈ refs, r.addr ≠ a) : refs.filter (fun r => decide (r.addr ≠ a)) = refs :=
  List.filter_eq_self.mpr fun r hr => by simp only [decide_eq_true_eq]; exact h r hr

theorem release_last {a : Nat} : ∀ {refs : List Ref}, (refs.map (·.addr)).Nodup → ∀ {r}, r ∈ refs → r.addr = a → r.count = 1 →
    release a refs = some (refs.filter fun r => decide (r.addr ≠ a))
  | [], _, _, hr, _, _ => absurd hr List.not_mem_nil
  | x :: refs, hn, r, hr, ha, hc => by
    rw [List.map_cons, List.nodup_cons] at hn
    unfold release
    by_cases hx : x.addr = a
    · have e : r = x := by
        rcases List.mem_cons.mp hr with h | h
        · exact h
        · exact absurd (List.mem_map.mpr ⟨r, h, ha.trans hx.symm⟩) hn.1
      subst e
      rw [if_pos hx, if_pos hc, List.filter_cons_of_neg (by simp only [ne_eq, hx, not_true_eq_false, decide_false, Bool.false_eq_true, not_false_eq_true])]
      rw [filter_other (fun y hy hya => hn.1 (List.mem_map.mpr ⟨y, hy, hya.trans hx.symm⟩))]
    · have hr' : r ∈ refs := by
        rcases List.mem_cons.mp hr with h | h
        · exact absurd (h ▸ ha) hx
        · exact h
      rw [if_neg hx, release_last hn.2 hr' ha hc, List.filter_cons_of_pos (by simp only [ne_eq, hx, not_false_eq_true, decide_true])]
      rfl

theorem popTo_ok : ∀ (seg refs : List Ref), ((seg ++ refs).map (·.addr)).Nodup → popTo (refs.head?.map (·.addr)) (seg ++ refs) = some refs
  | [], [], _ => rfl
  | [], r :: refs, _ => by
    show popTo (some r.addr) (r :: refs) = _
    unfold popTo
    rw [if_pos rfl]
  | r :: seg, refs, hn => by
    rw [List.cons_append, List.map_cons, List.nodup_cons] at hn
    rw [List.cons_append]
    unfold popTo
    rw [if_neg ?_]
    · exact popTo_ok seg refs hn.2
    · intro e
      cases refs with
      | nil => simp only [List.head?_nil, Option.map_none, reduceCtorEq] at e
      | cons x refs =>
        simp only [List.head?_cons, Option.map_some, Option.some.injEq] at e
        exact hn.1 (List.mem_map.mpr ⟨x, List.mem_append.mpr (Or.inr List.mem_cons_self), e.symm⟩)

/-! ### Each operation keeps it -/

def holdL (a o : Nat) : List Level → List Level
  | [] => []
  | l :: rest => { l with scope := { l.scope with held := (a, o) :: l.scope.held } } :: rest

theorem marks_top {l l' : Level} (h : l'.scope.native = l.scope.native) (n : Bool) (rest : List Level) : marks n (l' :: rest) = marks n (l :: rest) := by
  cases rest with
  | nil => rfl
  | cons m rest => unfold marks; rw [h]

/-- A new count of a reference that is there. -/
theorem acquire_inv {s : State} {ls : List Level} (h : Inv s ls) {r : Ref} (hr : r ∈ s.refs) {x : Nat} (hx : r.target = some x) :
    Inv { s with refs := acquire r.addr s.refs } (holdL r.addr x (mapL (acq r.addr) ls)) := by
  obtain ⟨h1, h2, h3, h4, h5, h6⟩ := h
  cases ls with
  | nil => exact absurd rfl h6
  | cons l rest =>
    have e : mapL (acq r.addr) (l :: rest) = { l with seg := l.seg.map (acq r.addr) } :: mapL (acq r.addr) rest := rfl
    have ef : flat (holdL r.addr x (mapL (acq r.addr) (l :: rest))) = (flat (l :: rest)).map (acq r.addr) := by
      rw [← flat_mapL, e]; rfl
    have hm : ∀ n, marks n (holdL r.addr x (mapL (acq r.addr) (l :: rest))) = marks n (l :: rest) := by
      intro n
      rw [← marks_mapL (acq_addr r.addr) n (l :: rest), e]
      exact marks_top (l := { l with seg := l.seg.map (acq r.addr) })
        (l' := ⟨{ l.scope with held := (r.addr, x) :: l.scope.held }, l.seg.map (acq r.addr)⟩) rfl n (mapL (acq r.addr) rest)
    refine ⟨?_, ?_, ?_, ?_, ?_, ?_⟩
    · rw [ef, ← h1]; rfl
    · rw [ef, map_addr (acq_addr _)]; exact h2
    · rw [hm]; exact h3
    · rw [hm]; exact h4
    · rw [e]
      obtain ⟨g1, g2, g3, g4⟩ := h5
      refine ⟨?_, ?_, ?_, ?_⟩
      · intro y hy
        obtain ⟨z, hz, rfl⟩ := List.mem_map.mp hy
        have a1 := g1 z hz
        simp only [acq_addr, acq_count, List.append_nil, cnt_cons] at a1 ⊢
        by_cases hza : z.addr = r.addr
        · rw [if_pos hza, if_pos hza.symm]; omega
        · rw [if_neg hza, if_neg (Ne.symm hza)]; omega
      · intro p hp
        show ∃ y ∈ l.seg.map (acq r.addr) ++ flat (mapL (acq r.addr) rest), _
        rw [flat_mapL, ← List.map_append, ← flat_cons]
        rcases List.mem_cons.mp hp with rfl | hp
        · exact ⟨acq r.addr r, List.mem_map.mpr ⟨r, h1 ▸ hr, rfl⟩, acq_addr _ _, by rw [acq_target]; exact hx⟩
        · obtain ⟨y, hy, e1, e2⟩ := g2 p hp
          rw [← flat_cons] at hy
          exact ⟨acq r.addr y, List.mem_map.mpr ⟨y, hy, rfl⟩, by rw [acq_addr]; exact e1, by rw [acq_target]; exact e2⟩
      · show l.scope.below = _
        rw [flat_mapL, map_addr (acq_addr _)]; exact g3
      · apply good_map (acq_addr _) (acq_target _) rest _ _ _ g4
        intro y hy
        show cnt y.addr ((r.addr, x) :: l.scope.held ++ []) + _ ≤ _
        rw [List.append_nil, List.append_nil, cnt_cons, acq_count]
        by_cases hya : y.addr = r.addr
        · rw [if_pos hya, if_pos hya.symm]; omega
        · rw [if_neg hya, if_neg (Ne.symm hya)]; omega
    · rw [e]; exact List.cons_ne_nil _ _

def addL (r : Ref) : List Level → List Level
  | [] => []
  | l :: rest => { l with seg := r :: l.seg } :: rest

/-- A new reference. -/
theorem new_inv {s : State} {ls : List Level} (h : Inv s ls) {fresh : Nat} (hf : ∀ r ∈ s.refs, r.addr ≠ fresh) (x : Nat) :
    Inv { s with refs := ⟨fresh, some x, 1, false⟩ :: s.refs } (holdL fresh x (addL ⟨fresh, some x, 1, false⟩ ls)) := by
  obtain ⟨h1, h2, h3, h4, h5, h6⟩ := h
  cases ls with
  | nil => exact absurd rfl h6
  | cons l rest =>
    have hm : ∀ n, marks n (holdL fresh x (addL ⟨fresh, some x, 1, false⟩ (l :: rest))) = marks n (l :: rest) := fun n =>
      marks_top (l := l) (l' := ⟨{ l.scope with held := (fresh, x) :: l.scope.held }, ⟨fresh, some x, 1, false⟩ :: l.seg⟩) rfl n rest
    have ef : flat (holdL fresh x (addL ⟨fresh, some x, 1, false⟩ (l :: rest))) = ⟨fresh, some x, 1, false⟩ :: flat (l :: rest) := by
      show flat (_ :: rest) = _
      rw [flat_cons, flat_cons]; rfl
    rw [h1] at hf
    have hno : ∀ p ∈ l.scope.held, p.1 ≠ fresh := by
      intro p hp e
      obtain ⟨r, hr, e1, _⟩ := good_live h5 List.mem_cons_self hp
      exact hf r hr (e1.trans e)
    have hc0 : cnt fresh l.scope.held = 0 := by
      unfold cnt
      rw [List.count_eq_zero]
      intro hmem
      obtain ⟨p, hp, e⟩ := List.mem_map.mp hmem
      exact hno p hp e
    refine ⟨?_, ?_, ?_, ?_, ?_, List.cons_ne_nil _ _⟩
    · rw [ef, ← h1]
    · rw [ef, List.map_cons, List.nodup_cons]
      refine ⟨?_, h2⟩
      intro hmem
      obtain ⟨r, hr, e⟩ := List.mem_map.mp hmem
      exact hf r hr e
    · rw [hm]; exact h3
    · rw [hm]; exact h4
    · obtain ⟨g1, g2, g3, g4⟩ := h5
      refine ⟨?_, ?_, g3, ?_⟩
      · intro y hy
        show cnt y.addr [] + 1 ≤ _ ∧ cnt y.addr ((fresh, x) :: l.scope.held ++ []) ≤ _
        rw [List.append_nil, cnt_cons]
        rcases List.mem_cons.mp hy with rfl | hy
        · simp only [hc0, if_true]
          exact ⟨Nat.le_refl 1, by omega⟩
        · have a1 := g1 y hy
          rw [List.append_nil] at a1
          have hne := hf y (by rw [flat_cons]; exact List.mem_append.mpr (Or.inl hy))
          simp only [Ne.symm hne, if_false]
          exact ⟨a1.1, a1.2⟩
      · intro p hp
        show ∃ y ∈ ⟨fresh, some x, 1, false⟩ :: l.seg ++ flat rest, _
        rcases List.mem_cons.mp hp with rfl | hp
        · exact ⟨_, List.mem_cons_self, rfl, rfl⟩
        · obtain ⟨y, hy, e⟩ := g2 p hp
          exact ⟨y, List.mem_cons_of_mem _ hy, e⟩
      · apply good_mono _ g4
        intro y hy
        have hne := hf y (by rw [flat_cons]; exact List.mem_append.mpr (Or.inr hy))
        show cnt y.addr ((fresh, x) :: l.scope.held ++ []) ≤ _
        rw [List.append_nil, List.append_nil, cnt_cons, if_neg (Ne.symm hne)]
        exact Nat.le_refl _

theorem holdL_scopes (a o : Nat) (ls : List Level) : (holdL a o ls).map (·.scope) = hold (some a) (some o) (ls.map (·.scope)) := by
  cases ls <;> rfl

theorem mapL_scopes (f : Ref → Ref) (ls : List Level) : (mapL f ls).map (·.scope) = ls.map (·.scope) := by
  unfold mapL
  rw [List.map_map]
  rfl

theorem addL_scopes (r : Ref) (ls : List Level) : (addL r ls).map (·.scope) = ls.map (·.scope) := by
  cases ls <;> rfl

theorem make_inv {s : State} {ls : List Level} (h : Inv s ls) {fresh : Nat} (hf : ∀ r ∈ s.refs, r.addr ≠ fresh) (o : Option Nat) :
    ∃ ls' a, makeLocalReference fresh o s.refs = ((makeLocalReference fresh o s.refs).1, a) ∧ (a = none ↔ o = none) ∧
      Inv { s with refs := (makeLocalReference fresh o s.refs).1 } ls' ∧ ls'.map (·.scope) = hold a o (ls.map (·.scope)) := by
  cases o with
  | none =>
    refine ⟨ls, none, rfl, by simp only, h, ?_⟩
    cases ls <;> rfl
  | some x =>
    unfold makeLocalReference
    simp only
    cases hfind : s.refs.find? (fun r => decide (r.target = some x)) with
    | some r =>
      have e := List.find?_some hfind
      simp only [decide_eq_true_eq] at e
      refine ⟨_, some r.addr, rfl, by simp only [reduceCtorEq], acquire_inv h (List.mem_of_find?_eq_some hfind) e, ?_⟩
      rw [holdL_scopes, mapL_scopes]
    | none =>
      have e : acquire fresh (⟨fresh, some x, 0, false⟩ :: s.refs) = ⟨fresh, some x, 1, false⟩ :: s.refs := by
        have e2 : acquire fresh (⟨fresh, some x, 0, false⟩ :: s.refs) = ⟨fresh, some x, 1, false⟩ :: acquire fresh s.refs := by
          unfold acquire
          rw [List.map_cons, if_pos rfl]
        rw [e2]
        congr 1
        exact map_other (f := acq) (fun r h => by unfold acq; rw [if_neg h]) hf
      simp only [e]
      refine ⟨_, some fresh, rfl, by simp only [reduceCtorEq], new_inv h hf x, ?_⟩
      rw [holdL_scopes, addL_scopes]

theorem delete_inv {s : State} {l : Level} {rest : List Level} (h : Inv s (l :: rest)) {a o : Nat} (hm : (a, o) ∈ l.scope.held) :
    ∃ refs l' rest', release a s.refs = some refs ∧ Inv { s with refs := refs } (l' :: rest') ∧
      l'.scope = { l.scope with held := l.scope.held.erase (a, o) } ∧ rest'.map (·.scope) = rest.map (·.scope) := by
  obtain ⟨h1, h2, h3, h4, h5, h6⟩ := h
  obtain ⟨r, hr, ea, eo⟩ := good_live h5 List.mem_cons_self hm
  simp only at ea eo
  have g := h5
  obtain ⟨g1, g2, g3, g4⟩ := g
  have hce := fun b => cnt_erase (a := b) hm
  simp only at hce
  by_cases hc : r.count = 1
  · -- the last count: made in this frame
    have hseg : r ∈ l.seg := by
      rw [flat_cons] at hr
      rcases List.mem_append.mp hr with hr | hr
      · exact hr
      · exfalso
        have := (fun (ls : List Level) (above : List (Nat × Nat)) (hg : Good above ls) => (fun r hr => by
          induction ls generalizing above with
          | nil => exact absurd hr List.not_mem_nil
          | cons m ls ih =>
            rw [flat_cons] at hr
            rcases List.mem_append.mp hr with hr | hr
            · exact (hg.1 r hr).1
            · have := ih _ hg.2.2.2 hr
              rw [cnt_append] at this
              omega : ∀ r ∈ flat ls, cnt r.addr above + 1 ≤ r.count)) rest _ g4 r hr
        rw [List.append_nil] at this
        have := cnt_pos hm ea.symm
        omega
    have hother : ∀ y ∈ flat rest, y.addr ≠ a := by
      intro y hy e
      rw [flat_cons, List.map_append] at h2
      have hd := (List.nodup_append.mp h2).2.2
      exact hd r.addr (List.mem_map.mpr ⟨r, hseg, rfl⟩) y.addr (List.mem_map.mpr ⟨y, hy, rfl⟩) (ea.trans e.symm)
    let seg' := l.seg.filter fun r => decide (r.addr ≠ a)
    let l' : Level := ⟨{ l.scope with held := l.scope.held.erase (a, o) }, seg'⟩
    refine ⟨flat (l' :: rest), l', rest, ?_, ?_, rfl, rfl⟩
    · rw [h1, release_last h2 hr ea hc, flat_cons, flat_cons, List.filter_append, filter_other hother]
    · refine ⟨rfl, ?_, ?_, ?_, ?_, List.cons_ne_nil _ _⟩
      · rw [flat_cons]
        rw [flat_cons] at h2
        exact List.Sublist.nodup ((List.filter_sublist.append (List.Sublist.refl _)).map _) h2
      · rw [marks_top (l := l) (l' := l') rfl]; exact h3
      · rw [marks_top (l := l) (l' := l') rfl]; exact h4
      · have hc1 : cnt a (l.scope.held.erase (a, o)) = 0 := by
          have a1 := (g1 r hseg).2
          rw [List.append_nil, ea] at a1
          have a2 := hce a
          rw [if_pos rfl] at a2
          omega
        refine ⟨?_, ?_, g3, ?_⟩
        · intro y hy
          have hy' := (List.mem_filter.mp hy).1
          have a1 := g1 y hy'
          have a2 := hce y.addr
          refine ⟨a1.1, ?_⟩
          show cnt y.addr (l.scope.held.erase (a, o) ++ []) ≤ _
          rw [List.append_nil] at a1 ⊢
          omega
        · intro p hp
          obtain ⟨y, hy, e1, e2⟩ := g2 p (List.mem_of_mem_erase hp)
          have hne : y.addr ≠ a := by
            intro e
            have : 1 ≤ cnt a (l.scope.held.erase (a, o)) := cnt_pos (a := a) hp (e1.symm.trans e)
            omega
          refine ⟨y, ?_, e1, e2⟩
          rcases List.mem_append.mp hy with hy | hy
          · exact List.mem_append.mpr (Or.inl (List.mem_filter.mpr ⟨hy, by simp only [decide_eq_true_eq]; exact hne⟩))
          · exact List.mem_append.mpr (Or.inr hy)
        · apply good_mono _ g4
          intro y hy
          show cnt y.addr (l.scope.held.erase (a, o) ++ []) ≤ _
          rw [List.append_nil, List.append_nil]
          have := hce y.addr
          omega
  · let l' : Level := ⟨{ l.scope with held := l.scope.held.erase (a, o) }, l.seg.map (dec a)⟩
    have ef : flat (l' :: mapL (dec a) rest) = (flat (l :: rest)).map (dec a) := by
      rw [flat_cons, flat_cons, flat_mapL, List.map_append]
    have hmk : ∀ n, marks n (l' :: mapL (dec a) rest) = marks n (l :: rest) := by
      intro n
      rw [← marks_mapL (dec_addr a) n (l :: rest)]
      exact marks_top (l := { l with seg := l.seg.map (dec a) }) (l' := l') rfl n _
    refine ⟨flat (l' :: mapL (dec a) rest), l', mapL (dec a) rest, ?_, ?_, rfl, mapL_scopes _ _⟩
    · rw [h1, release_dec h2 hr ea hc, ef]
    · refine ⟨rfl, ?_, ?_, ?_, ?_, List.cons_ne_nil _ _⟩
      · rw [ef, map_addr (dec_addr a)]; exact h2
      · rw [hmk]; exact h3
      · rw [hmk]; exact h4
      · refine ⟨?_, ?_, ?_, ?_⟩
        · intro y hy
          obtain ⟨z, hz, rfl⟩ := List.mem_map.mp hy
          have a1 := g1 z hz
          have a2 := hce z.addr
          have hz1 : z.addr = a → z.count ≠ 1 := by
            intro e
            rw [nodup_inj h2 (by rw [flat_cons]; exact List.mem_append.mpr (Or.inl hz)) hr (e.trans ea.symm)]
            exact hc
          show cnt _ [] + 1 ≤ _ ∧ cnt _ (l.scope.held.erase (a, o) ++ []) ≤ _
          rw [List.append_nil] at a1 ⊢
          rw [dec_addr, dec_count]
          by_cases hza : z.addr = a
          · have := hz1 hza
            rw [if_pos hza]
            rw [if_pos hza.symm] at a2
            have e0 : cnt z.addr [] = 0 := rfl
            omega
          · rw [if_neg hza]
            rw [if_neg (Ne.symm hza)] at a2
            omega
        · intro p hp
          obtain ⟨y, hy, e1, e2⟩ := g2 p (List.mem_of_mem_erase hp)
          show ∃ y ∈ l.seg.map (dec a) ++ flat (mapL (dec a) rest), _
          rw [flat_mapL, ← List.map_append]
          exact ⟨dec a y, List.mem_map.mpr ⟨y, hy, rfl⟩, by rw [dec_addr]; exact e1, by rw [dec_target]; exact e2⟩
        · show l.scope.below = _
          rw [flat_mapL, map_addr (dec_addr _)]; exact g3
        · apply good_map (dec_addr _) (dec_target _) rest _ _ _ g4
          intro y hy
          show cnt y.addr (l.scope.held.erase (a, o) ++ []) + _ ≤ _
          rw [List.append_nil, List.append_nil, dec_count]
          have a2 := hce y.addr
          by_cases hya : y.addr = a
          · rw [if_pos hya]
            rw [if_pos hya.symm] at a2
            omega
          · rw [if_neg hya]
            rw [if_neg (Ne.symm hya)] at a2
            omega

theorem pop_inv {s : State} {l m : Level} {rest : List Level} (h : Inv s (l :: m :: rest)) :
    popTo ((flat (m :: rest)).head?.map (·.addr)) s.refs = some (flat (m :: rest)) ∧ ((flat (m :: rest)).map (·.addr)).Nodup ∧ Good [] (m :: rest) := by
  obtain ⟨h1, h2, _, _, h5, _⟩ := h
  rw [flat_cons] at h1 h2
  refine ⟨?_, ?_, ?_⟩
  · rw [h1]; exact popTo_ok _ _ h2
  · rw [List.map_append] at h2
    exact (List.nodup_append.mp h2).2.1
  · apply good_mono _ h5.2.2.2
    intro r _
    exact Nat.zero_le _

theorem live_level {ls : List Level} {a o : Nat} (h : Live (ls.map (·.scope)) a o) : ∃ l ∈ ls, (a, o) ∈ l.scope.held := by
  obtain ⟨s, hs, hm⟩ := h
  obtain ⟨l, hl, rfl⟩ := List.mem_map.mp hs
  exact ⟨l, hl, hm⟩

theorem inv_deref {s : State} {ls : List Level} (h : Inv s ls) {a o : Nat} (hl : Live (ls.map (·.scope)) a o) : deref a s.refs = some (some o) := by
  obtain ⟨l, hl, hm⟩ := live_level hl
  obtain ⟨r, hr, ea, eo⟩ := good_live h.good hl hm
  simp only at ea eo
  rw [h.refs, ← ea, deref_ok h.nodup hr, eo]

theorem push_marks (s : State) {ls : List Level} (h : Inv s ls) (native n : Bool) :
    marks n (⟨⟨native, [], s.refs.map (·.addr)⟩, []⟩ :: ls) = if native = n then s.head :: marks n ls else marks n ls := by
  cases ls with
  | nil => exact absurd rfl h.some
  | cons m rest =>
    conv => lhs; unfold marks
    unfold State.head
    rw [h.refs]

/-- Each legal operation succeeds, with an outcome that the specification allows, and keeps the invariant. -/
theorem step_inv {s : State} {ls : List Level} (h : Inv s ls) {op : Op} (hl : Legal (ls.map (·.scope)) op) (hf : Fresh s op) :
    ∃ s' res, step s op = some (s', res) ∧ (∃ sc', Next (ls.map (·.scope)) s op res sc') ∧
      ∀ sc', Next (ls.map (·.scope)) s op res sc' → ∃ ls', Inv s' ls' ∧ ls'.map (·.scope) = sc' := by
  cases op with
  | make fresh o =>
    obtain ⟨ls', a, e, hn, hi, hs⟩ := make_inv h hf o
    refine ⟨{ s with refs := (makeLocalReference fresh o s.refs).1 }, .handle a, ?_, ⟨_, .make fresh o a hn⟩, ?_⟩
    · unfold step; simp only; rw [e]
    · intro sc' hx
      cases hx
      exact ⟨ls', hi, hs⟩
  | delete a =>
    cases a with
    | none =>
      refine ⟨s, .unit, rfl, ⟨_, .delete_null⟩, ?_⟩
      intro sc' hx
      cases hx
      exact ⟨ls, h, rfl⟩
    | some a =>
      obtain ⟨sc, rest, o, e, hm⟩ := hl
      cases ls with
      | nil => exact absurd rfl h.some
      | cons l rest0 =>
        simp only [List.map_cons, List.cons.injEq] at e
        obtain ⟨rfl, rfl⟩ := e
        obtain ⟨refs, _, _, er, _⟩ := delete_inv h hm
        refine ⟨{ s with refs := refs }, .unit, ?_, ⟨_, .delete a o _ _ rfl hm⟩, ?_⟩
        · unfold step; simp only; rw [er]; rfl
        · intro sc' hx
          cases hx with
          | delete _ o' t rest e hm' =>
            simp only [List.map_cons, List.cons.injEq] at e
            obtain ⟨rfl, rfl⟩ := e
            obtain ⟨refs', l', rest', er', hi, e1, e2⟩ := delete_inv h hm'
            rw [er] at er'
            cases er'
            exact ⟨l' :: rest', hi, by rw [List.map_cons, e1, e2]⟩
  | push =>
    refine ⟨_, .unit, rfl, ⟨_, .push⟩, ?_⟩
    intro sc' hx
    cases hx
    refine ⟨⟨⟨false, [], s.refs.map (·.addr)⟩, []⟩ :: ls, ⟨?_, ?_, ?_, ?_, ?_, List.cons_ne_nil _ _⟩, rfl⟩
    · rw [flat_cons]; exact h.refs
    · rw [flat_cons]; exact h.nodup
    · rw [push_marks s h]; simp only [if_true]; rw [h.frames]
    · rw [push_marks s h]; simp only [Bool.false_eq_true, if_false]; exact h.calls
    · refine ⟨fun r hr => absurd hr List.not_mem_nil, fun p hp => absurd hp List.not_mem_nil, by rw [← h.refs], h.good⟩
  | call =>
    refine ⟨_, .unit, rfl, ⟨_, .call⟩, ?_⟩
    intro sc' hx
    cases hx
    refine ⟨⟨⟨true, [], s.refs.map (·.addr)⟩, []⟩ :: ls, ⟨?_, ?_, ?_, ?_, ?_, List.cons_ne_nil _ _⟩, rfl⟩
    · rw [flat_cons]; exact h.refs
    · rw [flat_cons]; exact h.nodup
    · rw [push_marks s h]; simp only [Bool.true_eq_false, if_false]; exact h.frames
    · rw [push_marks s h]; simp only [if_true]; rw [h.calls]
    · refine ⟨fun r hr => absurd hr List.not_mem_nil, fun p hp => absurd hp List.not_mem_nil, by rw [← h.refs], h.good⟩
  | pop fresh result =>
    obtain ⟨⟨sc, sm, srest, e, hnat⟩, hres⟩ := hl
    match ls, h, e with
    | l :: m :: rest, h, e =>
      simp only [List.map_cons, List.cons.injEq] at e
      obtain ⟨rfl, rfl, rfl⟩ := e
      obtain ⟨hp, hn, hg⟩ := pop_inv h
      have hfr : s.frames = (flat (m :: rest)).head?.map (·.addr) :: marks false (m :: rest) := by
        rw [h.frames]
        conv => lhs; unfold marks
        rw [if_pos hnat]
      have hcl : s.calls = marks true (m :: rest) := by
        rw [h.calls]
        conv => lhs; unfold marks
        rw [if_neg (by rw [hnat]; decide)]
      have hinv : Inv { s with refs := flat (m :: rest), frames := marks false (m :: rest) } (m :: rest) :=
        ⟨rfl, hn, rfl, hcl, hg, List.cons_ne_nil _ _⟩
      have hfresh : ∀ r ∈ flat (m :: rest), r.addr ≠ fresh := hf _ (by rw [hfr]; rfl) _ hp
      cases result with
      | none =>
        refine ⟨{ s with refs := flat (m :: rest), frames := marks false (m :: rest) }, .handle none, ?_, ⟨_, .pop fresh none none none rfl (by simp only)⟩, ?_⟩
        · unfold step; simp only; rw [hfr]; simp only; rw [hp]; rfl
        · intro sc' hx
          cases hx with
          | pop _ _ o _ hmean hiff =>
            exact ⟨m :: rest, hinv, rfl⟩
      | some a =>
        obtain ⟨o, ho⟩ := hres a rfl
        have hd := inv_deref h ho
        obtain ⟨ls', b, eb, hiff, hi, hs⟩ := make_inv hinv hfresh (some o)
        refine ⟨{ s with refs := (makeLocalReference fresh (some o) (flat (m :: rest))).1, frames := marks false (m :: rest) }, .handle b, ?_,
          ⟨_, .pop fresh (some a) (some o) b ⟨o, rfl, ho⟩ hiff⟩, ?_⟩
        · unfold step; simp only; rw [hfr]; simp only; rw [hd, hp]
          simp only [Option.bind_some, Option.map_some]
          have : (makeLocalReference fresh (some o) (flat (m :: rest))).2 = b := congrArg Prod.snd eb
          rw [this]
        · intro sc' hx
          cases hx with
          | pop _ _ o' _ hmean hiff =>
            obtain ⟨x, rfl, hx⟩ := hmean
            have := inv_deref h hx
            rw [hd] at this
            cases this
            exact ⟨ls', hi, hs⟩
  | ret result =>
    obtain ⟨⟨sc, sm, srest, e, hnat⟩, hres⟩ := hl
    match ls, h, e with
    | l :: m :: rest, h, e =>
      simp only [List.map_cons, List.cons.injEq] at e
      obtain ⟨rfl, rfl, rfl⟩ := e
      obtain ⟨hp, hn, hg⟩ := pop_inv h
      have hcl : s.calls = (flat (m :: rest)).head?.map (·.addr) :: marks true (m :: rest) := by
        rw [h.calls]
        conv => lhs; unfold marks
        rw [if_pos hnat]
      have hfr : s.frames = marks false (m :: rest) := by
        rw [h.frames]
        conv => lhs; unfold marks
        rw [if_neg (by rw [hnat]; decide)]
      have hinv : Inv { s with refs := flat (m :: rest), calls := marks true (m :: rest) } (m :: rest) :=
        ⟨rfl, hn, hfr, rfl, hg, List.cons_ne_nil _ _⟩
      cases result with
      | none =>
        refine ⟨{ s with refs := flat (m :: rest), calls := marks true (m :: rest) }, .object none, ?_, ⟨_, .ret none none rfl⟩, ?_⟩
        · unfold step; simp only; rw [hcl]; simp only; rw [hp]; rfl
        · intro sc' hx
          cases hx with
          | ret _ _ hmean => exact ⟨m :: rest, hinv, rfl⟩
      | some a =>
        obtain ⟨o, ho⟩ := hres a rfl
        have hd := inv_deref h ho
        refine ⟨{ s with refs := flat (m :: rest), calls := marks true (m :: rest) }, .object (some o), ?_, ⟨_, .ret (some a) (some o) ⟨o, rfl, ho⟩⟩, ?_⟩
        · unfold step; simp only; rw [hcl]; simp only; rw [hd, hp]; rfl
        · intro sc' hx
          cases hx with
          | ret _ _ hmean => exact ⟨m :: rest, hinv, rfl⟩

theorem run_inv {s : State} {sc : List Scope} (h : Run s sc) : ∃ ls, Inv s ls ∧ ls.map (·.scope) = sc := by
  induction h with
  | init =>
    refine ⟨[⟨⟨false, [], []⟩, []⟩], ⟨rfl, List.nodup_nil, rfl, rfl, ?_, List.cons_ne_nil _ _⟩, rfl⟩
    exact ⟨fun r hr => absurd hr List.not_mem_nil, fun p hp => absurd hp List.not_mem_nil, rfl, trivial⟩
  | step _ hl hf hs hn ih =>
    obtain ⟨ls, hi, rfl⟩ := ih
    obtain ⟨s', res, e, _, hall⟩ := step_inv hi hl hf
    rw [hs] at e
    cases e
    exact hall _ hn

/-! ### C102 -/

/-- Whatever native code does, a reference that was given to it leads to its object as long as it is not deleted and its frame has not ended. -/
theorem live_ok_partial {s : State} {sc : List Scope} (h : Run s sc) {a o : Nat} (hl : Live sc a o) : deref a s.refs = some (some o) := by
  obtain ⟨ls, hi, rfl⟩ := run_inv h
  exact inv_deref hi hl

/-- No legal operation fails, and its outcome is one of those specified: null for null only, and from `PopLocalFrame` and a native method's return
the object of the given reference. -/
theorem step_ok_partial {s : State} {sc : List Scope} (h : Run s sc) {op : Op} (hl : Legal sc op) (hf : Fresh s op) :
    ∃ s' res sc', step s op = some (s', res) ∧ Next sc s op res sc' := by
  obtain ⟨ls, hi, rfl⟩ := run_inv h
  obtain ⟨s', res, e, ⟨sc', hn⟩, _⟩ := step_inv hi hl hf
  exact ⟨s', res, sc', e, hn⟩

/-- When a native method returns, exactly the references that there were when it was called are left. -/
theorem ret_frees_partial {s s' : State} {sc : List Scope} (h : Run s sc) {result : Option Nat} (hl : Legal sc (.ret result)) {res : Res}
    (hs : step s (.ret result) = some (s', res)) : ∀ t, sc.head? = some t → s'.refs.map (·.addr) = t.below := by
  intro t ht
  obtain ⟨ls, hi, rfl⟩ := run_inv h
  obtain ⟨s2, res2, e, ⟨sc', hn⟩, hall⟩ := step_inv hi hl trivial
  rw [hs] at e
  cases e
  obtain ⟨⟨x, y, rest, e, hnat⟩, _⟩ := hl
  match ls, hi, e with
  | l :: m :: rest, hi, e =>
    simp only [List.map_cons, List.cons.injEq] at e
    obtain ⟨rfl, rfl, rfl⟩ := e
    simp only [List.map_cons, List.head?_cons, Option.some.injEq] at ht
    subst ht
    obtain ⟨hp, _, _⟩ := pop_inv hi
    have hcl : s.calls = (flat (m :: rest)).head?.map (·.addr) :: marks true (m :: rest) := by
      rw [hi.calls]
      conv => lhs; unfold marks
      rw [if_pos hnat]
    have : s'.refs = flat (m :: rest) := by
      unfold step at hs
      simp only at hs
      rw [hcl] at hs
      simp only at hs
      rw [hp] at hs
      cases result with
      | none => simp only [Option.map_some, Option.some.injEq, Prod.mk.injEq] at hs; rw [← hs.1]
      | some a =>
        simp only [Option.map_some] at hs
        cases hd : deref a s.refs with
        | none => rw [hd] at hs; simp only [Option.bind_none, reduceCtorEq] at hs
        | some o => rw [hd] at hs; simp only [Option.bind_some, Option.some.injEq, Prod.mk.injEq] at hs; rw [← hs.1]
    rw [this]
    exact hi.good.2.2.1.symm

/-! ### Where the code fails -/

theorem popTo_none {a : Nat} : ∀ {refs : List Ref}, (∀ r ∈ refs, r.addr ≠ a) → popTo (some a) refs = none
  | [], _ => rfl
  | r :: refs, h => by
    unfold popTo
    rw [if_neg (by rw [Option.some.injEq]; exact h r List.mem_cons_self)]
    exact popTo_none fun x hx => h x (List.mem_cons_of_mem _ hx)

/-- Deleting, in a pushed frame, the newest reference of the frame around it makes the end of the frame dispose of all references and then of null. -/
theorem delete_outer_wrong (s : State) (r : Ref) (refs : List Ref) (hs : s.refs = r :: refs) (hn : ∀ x ∈ refs, x.addr ≠ r.addr) (hc : r.count = 1) (fresh : Nat) :
    ((step s .push).bind fun x => (step x.1 (.delete (some r.addr))).bind fun y => step y.1 (.pop fresh none)) = none := by
  have e1 : step s .push = some ({ s with frames := some r.addr :: s.frames }, .unit) := by
    unfold step State.head; rw [hs]; rfl
  have e2 : release r.addr (r :: refs) = some refs := by
    unfold release; rw [if_pos rfl, if_pos hc]
  rw [e1]
  simp only [Option.bind_some]
  unfold step
  simp only
  rw [hs, e2]
  simp only [Option.map_some, Option.bind_some]
  rw [popTo_none hn]; rfl

/-- Deleting what is not in the list, such as the reference to an argument (the address of a word of the Java stack: compile.cpp:7604-7650), uses
memory that is no reference. -/
theorem delete_argument_wrong (s : State) (a : Nat) (h : ∀ r ∈ s.refs, r.addr ≠ a) : step s (.delete (some a)) = none := by
  have : ∀ refs : List Ref, (∀ r ∈ refs, r.addr ≠ a) → release a refs = none := by
    intro refs
    induction refs with
    | nil => intro _; rfl
    | cons r refs ih =>
      intro h
      unfold release
      rw [if_neg (h r List.mem_cons_self), ih (fun x hx => h x (List.mem_cons_of_mem _ hx))]; rfl
  unfold step
  simp only
  rw [this _ h]; rfl

/-- A reference that is made again in a pushed frame and not deleted there is not freed when the references to the object are deleted. -/
theorem shared_kept_wrong (r : Ref) (x : Nat) (frames calls : List (Option Nat)) (ht : r.target = some x) (hc : r.count = 1) (fresh : Nat) :
    ((step ⟨[r], frames, calls⟩ .push).bind fun a => (step a.1 (.make fresh (some x))).bind fun b => (step b.1 (.pop fresh none)).bind fun c =>
      step c.1 (.delete (some r.addr))) = some (⟨[r], frames, calls⟩, .unit) := by
  obtain ⟨ra, rt, rc, rw_⟩ := r
  simp only at ht hc
  subst ht hc
  simp only [step, State.head, makeLocalReference, List.find?_cons, decide_true, acquire, List.map_cons, List.map_nil, if_true, popTo, release,
    Option.bind_some, Option.map_some, List.head?_cons]
  rfl

/-! ### Global references -/

inductive GOp where
  /-- `NewGlobalRef` or `NewWeakGlobalRef` of a reference to an object. -/
  | make (fresh : Nat) (weak : Bool) (o : Nat)
  | delete (a : Nat)
  /-- A collection after which these objects are gone. -/
  | collect (gone : Nat → Bool)

def gstep (refs : List Ref) : GOp → Option (List Ref × Option Nat)
  | .make fresh weak o => some (newGlobalRef fresh weak (some (some o)) refs)
  | .delete a => (deleteGlobalRef (some a) refs).map (·, none)
  | .collect gone => some (clearWeak gone refs, none)

/-- A global reference that was given and not deleted: its address, its object (none if it is weak and the object is gone), and whether it is weak. -/
structure Held where
  addr : Nat
  object : Option Nat
  weak : Bool
  deriving DecidableEq

def cleared (gone : Nat → Bool) (h : Held) : Held :=
  match h.object with
  | none => h
  | some x => if h.weak ∧ gone x then { h with object := none } else h

inductive GRun : List Ref → List Held → Prop
  | init : GRun [] []
  | make {refs held fresh weak o refs' a} : GRun refs held → (∀ r ∈ refs, r.addr ≠ fresh) → gstep refs (.make fresh weak o) = some (refs', some a) →
      GRun refs' (⟨a, some o, weak⟩ :: held)
  | delete {refs held h refs' x} : GRun refs held → h ∈ held → gstep refs (.delete h.addr) = some (refs', x) → GRun refs' (held.erase h)
  | collect {refs held gone refs' x} : GRun refs held → gstep refs (.collect gone) = some (refs', x) → GRun refs' (held.map (cleared gone))

def gcnt (a : Nat) (held : List Held) : Nat := (held.map (·.addr)).count a

structure GInv (refs : List Ref) (held : List Held) : Prop where
  nodup : (refs.map (·.addr)).Nodup
  count : ∀ r ∈ refs, r.count = gcnt r.addr held ∧ 1 ≤ r.count
  held : ∀ h ∈ held, ∃ r ∈ refs, r.addr = h.addr ∧ r.target = h.object ∧ r.weak = h.weak

theorem gcnt_cons (a : Nat) (h : Held) (x : List Held) : gcnt a (h :: x) = gcnt a x + if h.addr = a then 1 else 0 := by
  unfold gcnt; rw [List.map_cons, List.count_cons]; simp only [beq_iff_eq]

theorem gcnt_erase {a : Nat} {h : Held} {x : List Held} (hm : h ∈ x) : gcnt a (x.erase h) + (if h.addr = a then 1 else 0) = gcnt a x := by
  have h1 : gcnt a x = gcnt a (h :: x.erase h) := by
    unfold gcnt
    exact List.Perm.count_eq ((List.perm_cons_erase hm).map _) a
  rw [h1, gcnt_cons]

theorem gcnt_pos {a : Nat} {h : Held} {x : List Held} (hm : h ∈ x) (ha : h.addr = a) : 1 ≤ gcnt a x := by
  unfold gcnt
  exact List.count_pos_iff.mpr (List.mem_map.mpr ⟨h, hm, ha⟩)

theorem acq_weak (a : Nat) (r : Ref) : (acq a r).weak = r.weak := by unfold acq; by_cases h : r.addr = a <;> simp only [h, if_true, if_false]
theorem dec_weak (a : Nat) (r : Ref) : (dec a r).weak = r.weak := by unfold dec; by_cases h : r.addr = a <;> simp only [h, if_true, if_false]

theorem gmake_inv {refs : List Ref} {held : List Held} (h : GInv refs held) {fresh : Nat} (hf : ∀ r ∈ refs, r.addr ≠ fresh) (weak : Bool) (o : Nat) :
    ∃ refs' a, gstep refs (.make fresh weak o) = some (refs', some a) ∧ GInv refs' (⟨a, some o, weak⟩ :: held) := by
  obtain ⟨h1, h2, h3⟩ := h
  unfold gstep newGlobalRef
  simp only
  cases hfind : refs.find? (fun r => decide (r.target = some o ∧ r.weak = weak)) with
  | some r =>
    have e := List.find?_some hfind
    have hr := List.mem_of_find?_eq_some hfind
    simp only [decide_eq_true_eq] at e
    refine ⟨refs.map (acq r.addr), r.addr, rfl, ?_, ?_, ?_⟩
    · rw [map_addr (acq_addr _)]; exact h1
    · intro x hx
      obtain ⟨y, hy, rfl⟩ := List.mem_map.mp hx
      have a1 := h2 y hy
      rw [acq_addr, acq_count, gcnt_cons]
      simp only
      by_cases hya : y.addr = r.addr
      · rw [if_pos hya, if_pos hya.symm]; omega
      · rw [if_neg hya, if_neg (Ne.symm hya)]; omega
    · intro p hp
      rcases List.mem_cons.mp hp with rfl | hp
      · exact ⟨acq r.addr r, List.mem_map.mpr ⟨r, hr, rfl⟩, acq_addr _ _, by rw [acq_target]; exact e.1, by rw [acq_weak]; exact e.2⟩
      · obtain ⟨y, hy, e1, e2, e3⟩ := h3 p hp
        exact ⟨acq r.addr y, List.mem_map.mpr ⟨y, hy, rfl⟩, by rw [acq_addr]; exact e1, by rw [acq_target]; exact e2, by rw [acq_weak]; exact e3⟩
  | none =>
    have e : acquire fresh (⟨fresh, some o, 0, weak⟩ :: refs) = ⟨fresh, some o, 1, weak⟩ :: refs := by
      have e2 : acquire fresh (⟨fresh, some o, 0, weak⟩ :: refs) = ⟨fresh, some o, 1, weak⟩ :: acquire fresh refs := by
        unfold acquire
        rw [List.map_cons, if_pos rfl]
      rw [e2]
      congr 1
      exact map_other (f := acq) (fun r h => by unfold acq; rw [if_neg h]) hf
    refine ⟨⟨fresh, some o, 1, weak⟩ :: refs, fresh, by simp only; rw [e], ?_, ?_, ?_⟩
    · rw [List.map_cons, List.nodup_cons]
      refine ⟨?_, h1⟩
      intro hmem
      obtain ⟨r, hr, e⟩ := List.mem_map.mp hmem
      exact hf r hr e
    · have hc0 : gcnt fresh held = 0 := by
        unfold gcnt
        rw [List.count_eq_zero]
        intro hmem
        obtain ⟨p, hp, e⟩ := List.mem_map.mp hmem
        obtain ⟨r, hr, e1, _⟩ := h3 p hp
        exact hf r hr (e1.trans e)
      intro x hx
      rw [gcnt_cons]
      rcases List.mem_cons.mp hx with rfl | hx
      · simp only [hc0, if_true]
        exact ⟨trivial, Nat.le_refl 1⟩
      · have a1 := h2 x hx
        simp only [Ne.symm (hf x hx), if_false]
        exact a1
    · intro p hp
      rcases List.mem_cons.mp hp with rfl | hp
      · exact ⟨_, List.mem_cons_self, rfl, rfl, rfl⟩
      · obtain ⟨y, hy, e⟩ := h3 p hp
        exact ⟨y, List.mem_cons_of_mem _ hy, e⟩

theorem gdelete_inv {refs : List Ref} {held : List Held} (h : GInv refs held) {p : Held} (hp : p ∈ held) :
    ∃ refs' x, gstep refs (.delete p.addr) = some (refs', x) ∧ GInv refs' (held.erase p) := by
  obtain ⟨h1, h2, h3⟩ := h
  obtain ⟨r, hr, ea, _, _⟩ := h3 p hp
  have hce := fun b => gcnt_erase (a := b) hp
  unfold gstep deleteGlobalRef
  simp only
  by_cases hc : r.count = 1
  · rw [release_last h1 hr ea hc]
    refine ⟨_, _, rfl, List.Sublist.nodup (List.filter_sublist.map _) h1, ?_, ?_⟩
    · intro y hy
      obtain ⟨hy, hne⟩ := List.mem_filter.mp hy
      simp only [ne_eq, decide_eq_true_eq] at hne
      have a1 := h2 y hy
      have a2 := hce y.addr
      rw [if_neg (Ne.symm hne)] at a2
      omega
    · intro q hq
      obtain ⟨y, hy, e1, e2⟩ := h3 q (List.mem_of_mem_erase hq)
      refine ⟨y, List.mem_filter.mpr ⟨hy, ?_⟩, e1, e2⟩
      simp only [ne_eq, decide_eq_true_eq]
      intro e
      have a1 := gcnt_pos (a := p.addr) hq (e1.symm.trans e)
      have a2 := hce p.addr
      rw [if_pos rfl] at a2
      have a3 := (h2 r hr).1
      rw [ea] at a3
      omega
  · rw [release_dec h1 hr ea hc]
    refine ⟨_, _, rfl, ?_, ?_, ?_⟩
    · rw [map_addr (dec_addr _)]; exact h1
    · intro x hx
      obtain ⟨y, hy, rfl⟩ := List.mem_map.mp hx
      have a1 := h2 y hy
      have a2 := hce y.addr
      rw [dec_addr, dec_count]
      by_cases hya : y.addr = p.addr
      · rw [nodup_inj h1 hy hr (hya.trans ea.symm)] at a1 a2 ⊢
        rw [if_pos ea]
        rw [if_pos ea.symm] at a2
        omega
      · rw [if_neg hya]
        rw [if_neg (Ne.symm hya)] at a2
        omega
    · intro q hq
      obtain ⟨y, hy, e1, e2, e3⟩ := h3 q (List.mem_of_mem_erase hq)
      exact ⟨dec p.addr y, List.mem_map.mpr ⟨y, hy, rfl⟩, by rw [dec_addr]; exact e1, by rw [dec_target]; exact e2, by rw [dec_weak]; exact e3⟩

theorem cleared_addr (gone : Nat → Bool) (h : Held) : (cleared gone h).addr = h.addr := by
  unfold cleared
  obtain ⟨a, o, w⟩ := h
  cases o with
  | none => rfl
  | some x => simp only; by_cases hg : w = true ∧ gone x = true <;> simp only [hg, if_true, if_false, and_self] <;> rfl

def clr (gone : Nat → Bool) (r : Ref) : Ref :=
  match r.target with
  | none => r
  | some x => if r.weak ∧ gone x then { r with target := none } else r

theorem clr_addr (gone : Nat → Bool) (r : Ref) : (clr gone r).addr = r.addr := by
  unfold clr
  obtain ⟨a, o, c, w⟩ := r
  cases o with
  | none => rfl
  | some x => simp only; by_cases hg : w = true ∧ gone x = true <;> simp only [hg, if_true, if_false, and_self] <;> rfl

theorem clr_count (gone : Nat → Bool) (r : Ref) : (clr gone r).count = r.count := by
  unfold clr
  obtain ⟨a, o, c, w⟩ := r
  cases o with
  | none => rfl
  | some x => simp only; by_cases hg : w = true ∧ gone x = true <;> simp only [hg, if_true, if_false, and_self] <;> rfl

theorem gcollect_inv {refs : List Ref} {held : List Held} (h : GInv refs held) (gone : Nat → Bool) : GInv (clearWeak gone refs) (held.map (cleared gone)) := by
  obtain ⟨h1, h2, h3⟩ := h
  have e : clearWeak gone refs = refs.map (clr gone) := rfl
  have ec : ∀ a, gcnt a (held.map (cleared gone)) = gcnt a held := by
    intro a
    unfold gcnt
    rw [List.map_map]
    congr 1
    apply List.map_congr_left
    intro x _
    exact cleared_addr gone x
  rw [e]
  refine ⟨by rw [map_addr (clr_addr gone)]; exact h1, ?_, ?_⟩
  · intro x hx
    obtain ⟨y, hy, rfl⟩ := List.mem_map.mp hx
    rw [clr_addr, clr_count, ec]
    exact h2 y hy
  · intro q hq
    obtain ⟨p, hp, rfl⟩ := List.mem_map.mp hq
    obtain ⟨⟨a, t, c, w⟩, hy, e1, e2, e3⟩ := h3 p hp
    refine ⟨_, List.mem_map.mpr ⟨_, hy, rfl⟩, ?_⟩
    obtain ⟨pa, po, pw⟩ := p
    simp only at e1 e2 e3
    subst e1 e2 e3
    unfold clr cleared
    cases t with
    | none => exact ⟨rfl, rfl, rfl⟩
    | some x =>
      simp only
      by_cases hg : w = true ∧ gone x = true
      · rw [if_pos hg, if_pos hg]; exact ⟨rfl, rfl, rfl⟩
      · rw [if_neg hg, if_neg hg]; exact ⟨rfl, rfl, rfl⟩

theorem grun_inv {refs : List Ref} {held : List Held} (h : GRun refs held) : GInv refs held := by
  induction h with
  | init => exact ⟨List.nodup_nil, fun r hr => absurd hr List.not_mem_nil, fun r hr => absurd hr List.not_mem_nil⟩
  | make _ hf hs ih =>
    obtain ⟨refs', a, e, hi⟩ := gmake_inv ih hf _ _
    rw [hs] at e
    cases e
    exact hi
  | delete _ hm hs ih =>
    obtain ⟨refs', x, e, hi⟩ := gdelete_inv ih hm
    rw [hs] at e
    cases e
    exact hi
  | collect _ hs ih =>
    cases hs
    exact gcollect_inv ih _

/-- A global reference leads to its object until it is deleted; a weak one until its object is gone, and then to none. -/
theorem global_ok {refs : List Ref} {held : List Held} (h : GRun refs held) {p : Held} (hp : p ∈ held) : deref p.addr refs = some p.object := by
  have hi := grun_inv h
  obtain ⟨r, hr, ea, eo, _⟩ := hi.held p hp
  rw [← ea, deref_ok hi.nodup hr, eo]

/-- Making and deleting global references never fails. -/
theorem global_step_ok {refs : List Ref} {held : List Held} (h : GRun refs held) :
    (∀ fresh weak o, (∀ r ∈ refs, r.addr ≠ fresh) → ∃ refs' a, gstep refs (.make fresh weak o) = some (refs', some a)) ∧
    (∀ p ∈ held, ∃ refs' x, gstep refs (.delete p.addr) = some (refs', x)) := by
  have hi := grun_inv h
  refine ⟨?_, ?_⟩
  · intro fresh weak o hf
    obtain ⟨refs', a, e, _⟩ := gmake_inv hi hf weak o
    exact ⟨refs', a, e⟩
  · intro p hp
    obtain ⟨refs', x, e, _⟩ := gdelete_inv hi hp
    exact ⟨refs', x, e⟩

/-- A `Reference` is kept exactly as long as one given for it is not deleted. -/
theorem global_kept {refs : List Ref} {held : List Held} (h : GRun refs held) {r : Ref} (hr : r ∈ refs) : ∃ p ∈ held, p.addr = r.addr := by
  have hi := grun_inv h
  have a1 := hi.count r hr
  have : 0 < (held.map (·.addr)).count r.addr := by
    have e : (held.map (·.addr)).count r.addr = gcnt r.addr held := rfl
    omega
  obtain ⟨p, hp, e⟩ := List.mem_map.mp (List.count_pos_iff.mp this)
  exact ⟨p, hp, e⟩

/-- A weak reference whose object is gone is not the same as null, by the function by which native code is to find this out. -/
theorem weak_cleared_wrong {refs : List Ref} {held : List Held} (h : GRun refs held) {p : Held} (hp : p ∈ held) (hw : p.object = none) :
    (deref p.addr refs).map (fun o => isSameObject (some o) none) = some false := by
  rw [global_ok h hp, hw]; rfl

/-- A global reference made of a weak one whose object is gone is not null. -/
theorem global_of_cleared_wrong (fresh : Nat) (weak : Bool) (refs : List Ref) : (newGlobalRef fresh weak (some none) refs).2 ≠ none := by
  unfold newGlobalRef
  simp only
  cases refs.find? (fun r => decide (r.target = none ∧ r.weak = weak)) <;> simp only [ne_eq, reduceCtorEq, not_false_eq_true]

/-! ### The interpreter -/

/-- The frames of references of the interpreter: what was given in each and not deleted, the newest first.  What is on the stack in the beginning, such
as arguments, belongs to the oldest. -/
inductive IRun (limit : Nat) : IState → List (List (Nat × Nat)) → Prop
  | init {slots held} : (∀ p ∈ held, slots[p.1]? = some (some p.2)) → IRun limit ⟨slots, []⟩ [held]
  | make {s held rest x s' a} : IRun limit s (held :: rest) → iMake limit (some x) s = .ok (s', some a) → IRun limit s' (((a, x) :: held) :: rest)
  | delete {s sc a s'} : IRun limit s sc → (∃ held ∈ sc, ∃ x, (a, x) ∈ held) → iDelete (some a) s = .ok s' →
      IRun limit s' (sc.map fun held => held.filter fun p => p.1 ≠ a)
  | push {s sc n s'} : IRun limit s sc → iPush limit n s = (s', true) → IRun limit s' ([] :: sc)
  | pop {s held sc s'} : IRun limit s (held :: sc) → sc ≠ [] → iPopLocalFrame limit none s = .ok (s', none) → IRun limit s' sc
  | pop_result {s held held' sc a x s' b} : IRun limit s (held :: held' :: sc) → (∃ h ∈ held :: held' :: sc, (a, x) ∈ h) →
      iPopLocalFrame limit (some a) s = .ok (s', some b) → IRun limit s' (((b, x) :: held') :: sc)

/-- Where the references of each frame lie. -/
def IGood : Nat → List (List (Nat × Nat)) → List Nat → Prop
  | _, [], _ => False
  | top, [held], [] => ∀ p ∈ held, p.1 < top
  | _, [_], _ :: _ => False
  | _, _ :: _ :: _, [] => False
  | top, held :: next :: rest, m :: ms => (∀ p ∈ held, p.1 < top) ∧ m ≤ top ∧ IGood m (next :: rest) ms

theorem igood_mono : ∀ {top top' : Nat} {sc : List (List (Nat × Nat))} {ms : List Nat}, top ≤ top' → IGood top sc ms → IGood top' sc ms
  | _, _, [], _, _, h => h
  | _, _, [_], [], hle, h => fun p hp => Nat.lt_of_lt_of_le (h p hp) hle
  | _, _, [_], _ :: _, _, h => h
  | _, _, _ :: _ :: _, [], _, h => h
  | _, _, _ :: _ :: _, _ :: _, hle, h => ⟨fun p hp => Nat.lt_of_lt_of_le (h.1 p hp) hle, Nat.le_trans h.2.1 hle, h.2.2⟩

theorem igood_lt : ∀ {top : Nat} {sc : List (List (Nat × Nat))} {ms : List Nat}, IGood top sc ms → ∀ {held}, held ∈ sc → ∀ {p}, p ∈ held → p.1 < top
  | _, [], _, h, _, _, _, _ => h.elim
  | _, [_], [], h, held, hm, p, hp => by
    rw [List.mem_singleton] at hm
    exact h p (hm ▸ hp)
  | _, [_], _ :: _, h, _, _, _, _ => h.elim
  | _, _ :: _ :: _, [], h, _, _, _, _ => h.elim
  | _, _ :: _ :: _, _ :: _, h, held, hm, p, hp => by
    rcases List.mem_cons.mp hm with rfl | hm
    · exact h.1 p hp
    · exact Nat.lt_of_lt_of_le (igood_lt h.2.2 hm hp) h.2.1

theorem igood_filter (f : Nat × Nat → Bool) : ∀ {top : Nat} {sc : List (List (Nat × Nat))} {ms : List Nat}, IGood top sc ms → IGood top (sc.map fun held => held.filter f) ms
  | _, [], _, h => h
  | _, [_], [], h => fun p hp => h p (List.mem_filter.mp hp).1
  | _, [_], _ :: _, h => h
  | _, _ :: _ :: _, [], h => h
  | _, _ :: _ :: _, _ :: _, h => ⟨fun p hp => h.1 p (List.mem_filter.mp hp).1, h.2.1, igood_filter f h.2.2⟩

theorem igood_hold {top : Nat} {held : List (Nat × Nat)} {rest : List (List (Nat × Nat))} {ms : List Nat} (h : IGood top (held :: rest) ms) (x : Nat) :
    IGood (top + 1) (((top, x) :: held) :: rest) ms := by
  match rest, ms, h with
  | [], [], h =>
    intro p hp
    rcases List.mem_cons.mp hp with rfl | hp
    · exact Nat.lt_succ_self _
    · exact Nat.lt_succ_of_lt (h p hp)
  | _ :: _, _ :: _, h =>
    refine ⟨?_, Nat.le_succ_of_le h.2.1, h.2.2⟩
    intro p hp
    rcases List.mem_cons.mp hp with rfl | hp
    · exact Nat.lt_succ_self _
    · exact Nat.lt_succ_of_lt (h.1 p hp)

structure IInv (s : IState) (sc : List (List (Nat × Nat))) : Prop where
  good : IGood s.slots.length sc s.frames
  slots : ∀ held ∈ sc, ∀ p ∈ held, s.slots[p.1]? = some (some p.2)

theorem imake_inv {limit : Nat} {s s' : IState} {held : List (Nat × Nat)} {rest : List (List (Nat × Nat))} {x a : Nat} (h : IInv s (held :: rest))
    (e : iMake limit (some x) s = .ok (s', some a)) : IInv s' (((a, x) :: held) :: rest) := by
  unfold iMake at e
  simp only at e
  by_cases hl : s.slots.length + 1 < limit
  · rw [if_pos hl] at e
    simp only [Except.ok.injEq, Prod.mk.injEq, Option.some.injEq] at e
    obtain ⟨rfl, rfl⟩ := e
    refine ⟨?_, ?_⟩
    · show IGood (s.slots ++ [some x]).length _ _
      rw [List.length_append]
      exact igood_hold h.good x
    · intro hd hm p hp
      show (s.slots ++ [some x])[p.1]? = _
      have old : ∀ held' ∈ held :: rest, p ∈ held' → (s.slots ++ [some x])[p.1]? = some (some p.2) := by
        intro held' hm' hp'
        rw [List.getElem?_append_left (igood_lt h.good hm' hp')]
        exact h.slots held' hm' p hp'
      rcases List.mem_cons.mp hm with rfl | hm
      · rcases List.mem_cons.mp hp with rfl | hp
        · exact List.getElem?_concat_length
        · exact old held List.mem_cons_self hp
      · exact old hd (List.mem_cons_of_mem _ hm) hp
  · rw [if_neg hl] at e
    cases e

theorem ipop_inv {s s' : IState} {held held' : List (Nat × Nat)} {rest : List (List (Nat × Nat))} (h : IInv s (held :: held' :: rest)) (e : iPop s = .ok s') :
    IInv s' (held' :: rest) := by
  obtain ⟨slots, frames⟩ := s
  match frames, h, e with
  | m :: ms, h, e =>
    unfold iPop at e
    simp only [Except.ok.injEq] at e
    subst e
    have hg := h.good.2.2
    have hle : m ≤ slots.length := h.good.2.1
    have hlen : (slots.take m).length = m := by rw [List.length_take]; omega
    refine ⟨?_, ?_⟩
    · show IGood (slots.take m).length _ ms
      rw [hlen]; exact hg
    · intro hd hm p hp
      show (slots.take m)[p.1]? = _
      rw [List.getElem?_take_of_lt (igood_lt hg hm hp)]
      exact h.slots hd (List.mem_cons_of_mem _ hm) p hp
  | [], h, _ => exact h.good.elim

theorem irun_inv {limit : Nat} {s : IState} {sc : List (List (Nat × Nat))} (h : IRun limit s sc) : IInv s sc := by
  induction h with
  | init h =>
    refine ⟨?_, ?_⟩
    · intro p hp
      exact (List.getElem?_eq_some_iff.mp (h p hp)).1
    · intro hd hm p hp
      rw [List.mem_singleton] at hm
      exact h p (hm ▸ hp)
  | make _ e ih => exact imake_inv ih e
  | delete _ hm e ih =>
    rename_i s sc a s' _
    unfold iDelete at e
    simp only at e
    by_cases hl : a < s.slots.length
    · rw [if_pos hl] at e
      cases e
      refine ⟨?_, ?_⟩
      · show IGood (s.slots.set a none).length _ _
        rw [List.length_set]
        exact igood_filter _ ih.good
      · intro hd hm p hp
        obtain ⟨hd0, hm0, rfl⟩ := List.mem_map.mp hm
        obtain ⟨hp, hne⟩ := List.mem_filter.mp hp
        simp only [ne_eq, decide_eq_true_eq] at hne
        show (s.slots.set a none)[p.1]? = _
        rw [List.getElem?_set_ne (Ne.symm hne)]
        exact ih.slots hd0 hm0 p hp
    · rw [if_neg hl] at e
      cases e
  | push _ e ih =>
    rename_i s sc n s' _
    unfold iPush at e
    by_cases hl : s.slots.length + n < limit
    · rw [if_pos hl] at e
      cases e
      refine ⟨?_, ?_⟩
      · match sc, ih with
        | [], ih => exact ih.good.elim
        | hd :: rest, ih => exact ⟨fun p hp => absurd hp List.not_mem_nil, Nat.le_refl _, ih.good⟩
      · intro hd hm p hp
        rcases List.mem_cons.mp hm with rfl | hm
        · exact absurd hp List.not_mem_nil
        · exact ih.slots hd hm p hp
    · rw [if_neg hl] at e
      cases e
  | pop _ hne e ih =>
    rename_i s held sc s' _
    unfold iPopLocalFrame at e
    simp only at e
    cases hp : iPop s with
    | error x => rw [hp] at e; cases e
    | ok s1 =>
      rw [hp] at e
      cases e
      match sc, hne, ih with
      | hd :: rest, _, ih => exact ipop_inv ih hp
  | pop_result _ hm e ih =>
    rename_i s held held' sc a x s' b _
    obtain ⟨hd, hmd, hax⟩ := hm
    unfold iPopLocalFrame at e
    simp only at e
    have hlt := igood_lt ih.good hmd hax
    rw [if_pos hlt] at e
    have hx := ih.slots hd hmd _ hax
    simp only at hx hlt
    have hg : s.slots.getD a none = some x := by rw [List.getD_eq_getElem?_getD, hx]; rfl
    cases hp : iPop s with
    | error y => rw [hp] at e; cases e
    | ok s1 =>
      rw [hp, hg] at e
      exact imake_inv (ipop_inv ih hp) e

/-- In the interpreter references lead to their objects until they are deleted, in any frame, or their frame ends. -/
theorem interp_live_ok {limit : Nat} {s : IState} {sc : List (List (Nat × Nat))} (h : IRun limit s sc) {held : List (Nat × Nat)} (hm : held ∈ sc) {a o : Nat}
    (hp : (a, o) ∈ held) : s.slots[a]? = some (some o) := (irun_inv h).slots held hm _ hp

/-- No operation of the interpreter fails, but for a full stack. -/
theorem interp_step_ok {limit : Nat} {s : IState} {sc : List (List (Nat × Nat))} (h : IRun limit s sc) :
    (∀ a, (∃ held ∈ sc, ∃ x, (a, x) ∈ held) → ∃ s', iDelete (some a) s = .ok s') ∧
    (∀ x, s.slots.length + 1 < limit → ∃ s' a, iMake limit (some x) s = .ok (s', some a)) ∧
    (∀ held held' rest, sc = held :: held' :: rest → ∃ s', iPopLocalFrame limit none s = .ok (s', none)) := by
  have hi := irun_inv h
  refine ⟨?_, ?_, ?_⟩
  · rintro a ⟨held, hm, x, hp⟩
    unfold iDelete
    simp only
    rw [if_pos (igood_lt hi.good hm hp)]
    exact ⟨_, rfl⟩
  · intro x hl
    unfold iMake
    simp only
    rw [if_pos hl]
    exact ⟨_, _, rfl⟩
  · intro held held' rest e
    subst e
    obtain ⟨slots, frames⟩ := s
    match frames, hi with
    | m :: ms, _ => exact ⟨_, rfl⟩
    | [], hi => exact hi.good.elim

/-! ### Cases that meet the hypotheses -/

/-- Some operations one after the other. -/
def exec (s : State) : List Op → Option (State × List Res)
  | [] => some (s, [])
  | op :: ops => (step s op).bind fun (s, r) => (exec s ops).map fun (s, rs) => (s, r :: rs)

/-- A native method makes two references, one in a frame that it ends with the other as its result, and returns it. -/
example : exec ⟨[], [], []⟩ [.call, .make 100 (some 7), .push, .make 200 (some 8), .make 300 (some 7), .delete (some 100), .pop 200 (some 200), .ret (some 200)] =
    some (⟨[], [], []⟩, [.unit, .handle (some 100), .unit, .handle (some 200), .handle (some 100), .unit, .handle (some 200), .object (some 8)]) := by
  decide +kernel

theorem run_example : Run ⟨[⟨200, some 8, 1, false⟩, ⟨100, some 7, 2, false⟩], [some 100], []⟩ [⟨false, [(200, 8), (100, 7)], [100]⟩, ⟨false, [(100, 7)], []⟩] := by
  have h1 : Run ⟨[⟨100, some 7, 1, false⟩], [], []⟩ [⟨false, [(100, 7)], []⟩] :=
    .step (op := .make 100 (some 7)) .init trivial (fun r hr => absurd hr List.not_mem_nil) (by decide +kernel) (.make 100 (some 7) (some 100) (by simp only [reduceCtorEq]))
  have h2 : Run ⟨[⟨100, some 7, 1, false⟩], [some 100], []⟩ [⟨false, [], [100]⟩, ⟨false, [(100, 7)], []⟩] :=
    .step (op := .push) h1 trivial trivial (by decide +kernel) .push
  have h3 : Run ⟨[⟨100, some 7, 2, false⟩], [some 100], []⟩ [⟨false, [(100, 7)], [100]⟩, ⟨false, [(100, 7)], []⟩] :=
    .step (op := .make 300 (some 7)) h2 trivial (by intro r hr; rw [List.mem_singleton] at hr; subst hr; decide) (by decide +kernel)
      (.make 300 (some 7) (some 100) (by simp only [reduceCtorEq]))
  exact .step (op := .make 200 (some 8)) h3 trivial (by intro r hr; rw [List.mem_singleton] at hr; subst hr; decide) (by decide +kernel)
      (.make 200 (some 8) (some 200) (by simp only [reduceCtorEq]))

example : deref 100 [⟨200, some 8, 1, false⟩, ⟨100, some 7, 2, false⟩] = some (some 7) :=
  live_ok_partial run_example (a := 100) (o := 7) ⟨_, List.mem_cons_self, List.mem_cons_of_mem _ List.mem_cons_self⟩

/-- The outer reference deleted inside the frame. -/
example : exec ⟨[], [], []⟩ [.make 100 (some 7), .push, .make 200 (some 8), .delete (some 100), .pop 300 none] = none := by decide +kernel

example : GRun [⟨5, none, 1, true⟩] [⟨5, none, true⟩] :=
  .collect (gone := fun x => x == 7) (held := [⟨5, some 7, true⟩]) (.make (fresh := 5) (weak := true) (o := 7) .init (fun r hr => absurd hr List.not_mem_nil) rfl) rfl

example : IRun 100 ⟨[some 7, some 8], [1]⟩ [[(1, 8)], [(0, 7)]] :=
  .make (.push (n := 16) (s' := ⟨[some 7], [1]⟩) (.init (slots := [some 7]) (by intro p hp; rw [List.mem_singleton] at hp; subst hp; rfl)) (by decide +kernel)) (by decide +kernel)

end Avian.JniRefs
