import Verif.Tree.Functional

/-
The pointer program of `Verif.Tree.Model` refines the pure insertion of
`Verif.Tree.Functional`, and stores only into nodes it allocated itself.
-/
namespace Avian.Tree

/-- The tree `t` is stored at address `a`, all its nodes satisfying `P`. -/
def Repr (h : Heap) (s : Nat) (P : Nat → Prop) : Nat → T → Prop
  | a, .leaf => a = s
  | a, .node red l v r =>
    a ≠ s ∧ P a ∧ (h.mem a).red = red ∧ (h.mem a).value = v ∧
      Repr h s P (h.mem a).left l ∧ Repr h s P (h.mem a).right r

/-- The sentinel is black and points to itself. -/
structure Sent (h : Heap) (s : Nat) : Prop where
  red : (h.mem s).red = false
  left : (h.mem s).left = s
  right : (h.mem s).right = s

/-- `h'` comes from `h` by allocations and by stores at addresses from `n` on. -/
structure Ext (n : Nat) (h h' : Heap) : Prop where
  mem : ∀ x, x < n → h'.mem x = h.mem x
  log : ∃ l, h'.log = l ++ h.log ∧ ∀ a ∈ l, n ≤ a
  next : h.next ≤ h'.next

theorem Ext.refl (n : Nat) (h : Heap) : Ext n h h :=
  ⟨fun _ _ => rfl, ⟨[], rfl, fun _ ha => by cases ha⟩, Nat.le_refl _⟩

theorem Ext.trans {n h1 h2 h3} (a : Ext n h1 h2) (b : Ext n h2 h3) : Ext n h1 h3 := by
  obtain ⟨l, hl, hl'⟩ := a.log
  obtain ⟨k, hk, hk'⟩ := b.log
  refine ⟨fun x hx => (b.mem x hx).trans (a.mem x hx), ⟨k ++ l, by rw [hk, hl]; simp, ?_⟩,
    Nat.le_trans a.next b.next⟩
  intro x hx
  rcases List.mem_append.1 hx with h | h
  · exact hk' x h
  · exact hl' x h

theorem Ext.set {n : Nat} {h h' : Heap} (e : Ext n h h') (a : Nat) (v : Node) (ha : n ≤ a) :
    Ext n h (h'.set a v) := by
  refine e.trans ⟨?_, ⟨[a], rfl, by simpa using ha⟩, Nat.le_refl _⟩
  intro x hx
  simp only [Heap.set]
  rw [if_neg (by omega)]

theorem Ext.alloc {n : Nat} {h h' : Heap} (e : Ext n h h') (v : Node) (hn : n ≤ h.next) :
    Ext n h (h'.alloc v).2 := by
  have := e.next
  refine e.trans ⟨?_, ⟨[], rfl, by simp⟩, Nat.le_succ _⟩
  intro x hx
  simp only [Heap.alloc]
  rw [if_neg (by omega)]

theorem Ext.weaken {n m h h'} (e : Ext n h h') (hm : m ≤ n) : Ext m h h' := by
  obtain ⟨l, hl, hl'⟩ := e.log
  exact ⟨fun x hx => e.mem x (by omega), ⟨l, hl, fun a ha => by have := hl' a ha; omega⟩, e.next⟩

theorem Repr.congr {h h' : Heap} {s P a t} (hr : Repr h s P a t)
    (he : ∀ x, P x → h'.mem x = h.mem x) : Repr h' s P a t := by
  induction t generalizing a with
  | leaf => exact hr
  | node red l v r ihl ihr =>
    obtain ⟨h1, h2, h3, h4, h5, h6⟩ := hr
    have e := he a h2
    refine ⟨h1, h2, by rw [e]; exact h3, by rw [e]; exact h4, ?_, ?_⟩
    · rw [e]; exact ihl h5
    · rw [e]; exact ihr h6

theorem Repr.mono {h : Heap} {s a t} {P Q : Nat → Prop} (hr : Repr h s P a t)
    (he : ∀ x, P x → Q x) : Repr h s Q a t := by
  induction t generalizing a with
  | leaf => exact hr
  | node red l v r ihl ihr =>
    obtain ⟨h1, h2, h3, h4, h5, h6⟩ := hr
    exact ⟨h1, he a h2, h3, h4, ihl h5, ihr h6⟩

theorem Repr.unique {h : Heap} {s a t t'} {P Q : Nat → Prop} (hr : Repr h s P a t)
    (hr' : Repr h s Q a t') : t = t' := by
  induction t generalizing a t' with
  | leaf =>
    cases t' with
    | leaf => rfl
    | node => exact absurd hr hr'.1
  | node red l v r ihl ihr =>
    cases t' with
    | leaf => exact absurd hr' hr.1
    | node red' l' v' r' =>
      obtain ⟨_, _, h3, h4, h5, h6⟩ := hr
      obtain ⟨_, _, h3', h4', h5', h6'⟩ := hr'
      rw [← h3, ← h4, ← h3', ← h4', ihl h5 h5', ihr h6 h6']

/-- A tree smaller than the one stored at `b` does not contain the node `b`. -/
theorem Repr.avoid {h : Heap} {s a b t tb} {P : Nat → Prop} (hr : Repr h s P a t)
    (hb : Repr h s P b tb) (hs : t.size < tb.size) : Repr h s (fun x => P x ∧ x ≠ b) a t := by
  induction t generalizing a with
  | leaf => exact hr
  | node red l v r ihl ihr =>
    have hr0 := hr
    obtain ⟨h1, h2, h3, h4, h5, h6⟩ := hr
    simp only [T.size] at hs
    refine ⟨h1, ⟨h2, ?_⟩, h3, h4, ihl h5 (by omega), ihr h6 (by omega)⟩
    rintro rfl
    have := hr0.unique hb
    rw [← this] at hs
    simp only [T.size] at hs
    omega

/-- The frames `fs` are stored at the consecutive addresses `lim-1, lim-2, …, n0` and the
innermost one points to `c`; siblings live below `n0`. -/
def CtxRepr (h : Heap) (s n0 : Nat) : Nat → Nat → List Nat → List Frame → Prop
  | lim, _, [], [] => lim = n0
  | lim, c, a :: as, f :: fs =>
    a + 1 = lim ∧ n0 ≤ a ∧ (h.mem a).red = f.red ∧ (h.mem a).value = f.v ∧
    (if f.left then (h.mem a).left = c ∧ Repr h s (· < n0) (h.mem a).right f.sib
     else (h.mem a).right = c ∧ Repr h s (· < n0) (h.mem a).left f.sib) ∧
    CtxRepr h s n0 a a as fs
  | _, _, _, _ => False

theorem CtxRepr.congr {h h' : Heap} {s n0 lim c as fs} (hr : CtxRepr h s n0 lim c as fs)
    (hn : n0 ≤ lim) (he : ∀ x, x < lim → h'.mem x = h.mem x) :
    CtxRepr h' s n0 lim c as fs := by
  induction as generalizing lim c fs with
  | nil => cases fs <;> exact hr
  | cons a as ih =>
    cases fs with
    | nil => exact hr
    | cons f fs =>
      obtain ⟨h1, h2, h3, h4, h5, h6⟩ := hr
      have e := he a (by omega)
      refine ⟨h1, h2, by rw [e]; exact h3, by rw [e]; exact h4, ?_, ?_⟩
      · rw [e]
        cases hf : f.left <;> simp only [hf] at h5 ⊢
        · exact ⟨h5.1, h5.2.congr (fun x hx => he x (by omega))⟩
        · exact ⟨h5.1, h5.2.congr (fun x hx => he x (by omega))⟩
      · exact ih h6 h2 (fun x hx => he x (by omega))

/-- Root address of a plugged tree: the hole itself if there is no frame. -/
def rootOf (n0 c : Nat) (fs : List Frame) : Nat := match fs with | [] => c | _ :: _ => n0

theorem plug_repr {h : Heap} {s n0 lim c as fs t} {P : Nat → Prop} (hs : s < n0)
    (hr : CtxRepr h s n0 lim c as fs) (ht : Repr h s P c t)
    (hP : ∀ x, x < lim → P x) (hn : n0 ≤ lim) :
    Repr h s P (rootOf n0 c fs) (plug t fs) := by
  induction fs generalizing lim c as t with
  | nil => exact ht
  | cons f fs ih =>
    cases as with
    | nil => exact absurd hr (by simp [CtxRepr])
    | cons a as =>
      obtain ⟨h1, h2, h3, h4, h5, h6⟩ := hr
      have hnode : Repr h s P a (plug1 t f) := by
        unfold plug1
        cases hf : f.left <;> simp only [hf, Bool.false_eq_true, if_false, if_true] at h5 ⊢
        · refine ⟨by omega, hP a (by omega), h3, h4, ?_, ?_⟩
          · exact h5.2.mono (fun x hx => hP x (by omega))
          · rw [h5.1]; exact ht
        · refine ⟨by omega, hP a (by omega), h3, h4, ?_, ?_⟩
          · rw [h5.1]; exact ht
          · exact h5.2.mono (fun x hx => hP x (by omega))
      have := ih h6 hnode (fun x hx => hP x (by omega)) h2
      rw [plug]
      have e : rootOf n0 a fs = n0 := by
        cases fs with
        | nil =>
          cases as with
          | nil => exact h6
          | cons => exact absurd h6 (by simp [CtxRepr])
        | cons => rfl
      rw [e] at this
      exact this

theorem ctx_empty_lim {h : Heap} {s n0 lim c as} (hr : CtxRepr h s n0 lim c as []) :
    as = [] ∧ lim = n0 := by
  cases as with
  | nil => exact ⟨rfl, hr⟩
  | cons => exact absurd hr (by simp [CtxRepr])

/-! ### Path copying -/

theorem findPath_ok (s n0 : Nat) (key : Int) (value : Method) (hs : s < n0) :
    ∀ (b : Nat) (t : T) (ctx ctx' : List Frame) (h : Heap) (old new : Nat) (anc : List Nat),
    path key b t ctx = some ctx' →
    Sent h s → Repr h s (· < n0) old t → h.mem new = h.mem old → n0 ≤ new → new + 1 = h.next →
    CtxRepr h s n0 new new anc ctx →
    ∃ h' new' anc', findPath s key value b h old new anc =
        some (h', { fresh := true, node := new', ancestors := anc' }) ∧
      Ext n0 h h' ∧ Sent h' s ∧ n0 ≤ new' ∧ new' + 1 = h'.next ∧
      h'.mem new' = { value := value, red := false, left := s, right := s } ∧
      CtxRepr h' s n0 new' new' anc' ctx' := by
  intro b t ctx
  fun_induction path key b t ctx with
  | case1 b fs =>
    intro ctx' h old new anc hp hsent hrepr hmem hn hnext hctx
    cases hp
    have hold : old = s := hrepr
    subst hold
    unfold findPath
    rw [if_neg (by simp)]
    refine ⟨_, _, _, rfl, (Ext.refl n0 h).set _ _ hn, ?_, hn, hnext, ?_, ?_⟩
    · have e : (h.setValue new value).mem old = h.mem old := by
        simp only [Heap.setValue, Heap.set]; rw [if_neg (by omega)]
      exact ⟨by rw [e]; exact hsent.red, by rw [e]; exact hsent.left, by rw [e]; exact hsent.right⟩
    · simp only [Heap.setValue, Heap.set, if_true, hmem]
      rw [hsent.red, hsent.left, hsent.right]
    · refine hctx.congr hn ?_
      intro x hx
      simp only [Heap.setValue, Heap.set]; rw [if_neg (by omega)]
  | case2 => intro ctx' h old new anc hp; cases hp
  | case3 b red l v r fs hlt ih =>
    intro ctx' h old new anc hp hsent hrepr hmem hn hnext hctx
    obtain ⟨h1, h2, h3, h4, h5, h6⟩ := hrepr
    unfold findPath
    rw [if_pos h1]
    simp only [h4, if_pos hlt]
    generalize hh : ((h.clone (h.mem old).left).2.setLeft new (h.clone (h.mem old).left).1) = h2'
    have hm : ∀ x, h2'.mem x = if x = new then { h.mem old with left := h.next }
        else if x = h.next then h.mem (h.mem old).left else h.mem x := by
      intro x
      rw [← hh]
      simp only [Heap.setLeft, Heap.set, Heap.clone, Heap.alloc]
      by_cases hx : x = new
      · subst hx
        rw [if_pos rfl, if_pos rfl, if_neg (by omega), hmem]
      · rw [if_neg hx, if_neg hx]
    have hnx : h2'.next = h.next + 1 := by rw [← hh]; rfl
    have hlo : ∀ x, x < new → h2'.mem x = h.mem x := by
      intro x hx; rw [hm, if_neg (by omega), if_neg (by omega)]
    have e0 : Ext n0 h h2' := by
      rw [← hh]
      exact ((Ext.refl n0 h).alloc _ (by omega)).set _ _ hn
    have hl : (h.mem old).left < n0 := by
      cases l with
      | leaf => have : (h.mem old).left = s := h5; omega
      | node => exact h5.2.1
    obtain ⟨h', new', anc', g1, g2, g3, g4, g5, g6, g7⟩ :=
      ih ctx' h2' (h.mem old).left h.next (new :: anc) hp
        ⟨by rw [hlo s (by omega)]; exact hsent.red, by rw [hlo s (by omega)]; exact hsent.left,
          by rw [hlo s (by omega)]; exact hsent.right⟩
        (h5.congr (fun x hx => hlo x (by omega)))
        (by rw [hm h.next, if_neg (by omega), if_pos rfl, hlo _ (by omega)])
        (by omega) hnx.symm
        (by
          refine ⟨hnext, hn, ?_, ?_, ?_, ?_⟩
          · rw [hm, if_pos rfl]; exact h3
          · rw [hm, if_pos rfl]; exact h4
          · simp only [if_true]
            rw [hm, if_pos rfl]
            exact ⟨rfl, h6.congr (fun x hx => hlo x (by omega))⟩
          · exact hctx.congr hn (fun x hx => hlo x hx))
    exact ⟨h', new', anc', g1, e0.trans g2, g3, g4, g5, g6, g7⟩
  | case4 b red l v r fs hnlt hgt ih =>
    intro ctx' h old new anc hp hsent hrepr hmem hn hnext hctx
    obtain ⟨h1, h2, h3, h4, h5, h6⟩ := hrepr
    unfold findPath
    rw [if_pos h1]
    simp only [h4, if_neg hnlt, if_pos hgt]
    generalize hh : ((h.clone (h.mem old).right).2.setRight new (h.clone (h.mem old).right).1) = h2'
    have hm : ∀ x, h2'.mem x = if x = new then { h.mem old with right := h.next }
        else if x = h.next then h.mem (h.mem old).right else h.mem x := by
      intro x
      rw [← hh]
      simp only [Heap.setRight, Heap.set, Heap.clone, Heap.alloc]
      by_cases hx : x = new
      · subst hx
        rw [if_pos rfl, if_pos rfl, if_neg (by omega), hmem]
      · rw [if_neg hx, if_neg hx]
    have hnx : h2'.next = h.next + 1 := by rw [← hh]; rfl
    have hlo : ∀ x, x < new → h2'.mem x = h.mem x := by
      intro x hx; rw [hm, if_neg (by omega), if_neg (by omega)]
    have e0 : Ext n0 h h2' := by
      rw [← hh]
      exact ((Ext.refl n0 h).alloc _ (by omega)).set _ _ hn
    have hl : (h.mem old).right < n0 := by
      cases r with
      | leaf => have : (h.mem old).right = s := h6; omega
      | node => exact h6.2.1
    obtain ⟨h', new', anc', g1, g2, g3, g4, g5, g6, g7⟩ :=
      ih ctx' h2' (h.mem old).right h.next (new :: anc) hp
        ⟨by rw [hlo s (by omega)]; exact hsent.red, by rw [hlo s (by omega)]; exact hsent.left,
          by rw [hlo s (by omega)]; exact hsent.right⟩
        (h6.congr (fun x hx => hlo x (by omega)))
        (by rw [hm h.next, if_neg (by omega), if_pos rfl, hlo _ (by omega)])
        (by omega) hnx.symm
        (by
          refine ⟨hnext, hn, ?_, ?_, ?_, ?_⟩
          · rw [hm, if_pos rfl]; exact h3
          · rw [hm, if_pos rfl]; exact h4
          · simp only [Bool.false_eq_true, if_false]
            rw [hm, if_pos rfl]
            exact ⟨rfl, h5.congr (fun x hx => hlo x (by omega))⟩
          · exact hctx.congr hn (fun x hx => hlo x hx))
    exact ⟨h', new', anc', g1, e0.trans g2, g3, g4, g5, g6, g7⟩
  | case5 => intro ctx' h old new anc hp; cases hp

/-! ### Rotations -/

theorem repr_lt {h : Heap} {s n0 a t} (hs : s < n0) (hr : Repr h s (· < n0) a t) : a < n0 := by
  cases t with
  | leaf => have : a = s := hr; omega
  | node => exact hr.2.1

theorem repr_red {h : Heap} {s a t} {P : Nat → Prop} (hs : Sent h s) (hr : Repr h s P a t) :
    (h.mem a).red = t.isRed := by
  cases t with
  | leaf => have : a = s := hr; rw [this, hs.red]; rfl
  | node => exact hr.2.2.1

/-- util.cpp:241-244: recolour and rotate the grandparent right. -/
def outerL (h : Heap) (parent grand : Nat) : Nat × Heap :=
  rightRotate ((h.setRed parent false).setRed grand true) grand

/-- util.cpp:284-287. -/
def outerR (h : Heap) (parent grand : Nat) : Nat × Heap :=
  leftRotate ((h.setRed parent false).setRed grand true) grand

theorem outerL_spec (h : Heap) (parent grand : Nat) (hl : (h.mem grand).left = parent)
    (h1 : parent ≠ grand) (h2 : parent < h.next) (h3 : grand < h.next) :
    (outerL h parent grand).1 = h.next ∧ (outerL h parent grand).2.next = h.next + 1 ∧
    ∀ x, (outerL h parent grand).2.mem x =
      if x = h.next then { h.mem parent with red := false, right := grand }
      else if x = grand then { h.mem grand with red := true, left := (h.mem parent).right }
      else if x = parent then { h.mem parent with red := false }
      else h.mem x := by
  refine ⟨rfl, rfl, ?_⟩
  intro x
  simp only [outerL, rightRotate, Heap.clone, Heap.alloc, Heap.setRed, Heap.setLeft,
    Heap.setRight, Heap.set]
  grind

theorem outerR_spec (h : Heap) (parent grand : Nat) (hl : (h.mem grand).right = parent)
    (h1 : parent ≠ grand) (h2 : parent < h.next) (h3 : grand < h.next) :
    (outerR h parent grand).1 = h.next ∧ (outerR h parent grand).2.next = h.next + 1 ∧
    ∀ x, (outerR h parent grand).2.mem x =
      if x = h.next then { h.mem parent with red := false, left := grand }
      else if x = grand then { h.mem grand with red := true, right := (h.mem parent).left }
      else if x = parent then { h.mem parent with red := false }
      else h.mem x := by
  refine ⟨rfl, rfl, ?_⟩
  intro x
  simp only [outerR, leftRotate, Heap.clone, Heap.alloc, Heap.setRed, Heap.setLeft,
    Heap.setRight, Heap.set]
  grind

theorem outerL_ext (h : Heap) (n0 parent grand : Nat) (h1 : n0 ≤ parent) (h2 : n0 ≤ grand)
    (h3 : n0 ≤ h.next) : Ext n0 h (outerL h parent grand).2 :=
  (((((Ext.refl n0 h).set _ _ h1).set _ _ h2).alloc _ h3).set _ _ h2).set _ _ h3

theorem outerR_ext (h : Heap) (n0 parent grand : Nat) (h1 : n0 ≤ parent) (h2 : n0 ≤ grand)
    (h3 : n0 ≤ h.next) : Ext n0 h (outerR h parent grand).2 :=
  (((((Ext.refl n0 h).set _ _ h1).set _ _ h2).alloc _ h3).set _ _ h2).set _ _ h3

/-- util.cpp:229-238: rotate the parent left and reattach it. -/
def innerL (h : Heap) (parent grand : Nat) : Nat × Heap :=
  let (n, h) := leftRotate h parent
  (n, if parent = (h.mem grand).right then h.setRight grand n else h.setLeft grand n)

/-- util.cpp:272-281. -/
def innerR (h : Heap) (parent grand : Nat) : Nat × Heap :=
  let (n, h) := rightRotate h parent
  (n, if parent = (h.mem grand).left then h.setLeft grand n else h.setRight grand n)

theorem innerL_spec (h : Heap) (new parent grand : Nat) (hr : (h.mem parent).right = new)
    (hg : (h.mem grand).right ≠ parent) (h0 : new ≠ parent)
    (h1 : parent ≠ grand) (h2 : parent < h.next) (h3 : grand < h.next) (h4 : new < h.next) :
    (innerL h parent grand).1 = h.next ∧ (innerL h parent grand).2.next = h.next + 1 ∧
    ∀ x, (innerL h parent grand).2.mem x =
      if x = h.next then { h.mem new with left := parent }
      else if x = parent then { h.mem parent with right := (h.mem new).left }
      else if x = grand then { h.mem grand with left := h.next }
      else h.mem x := by
  have e : (((leftRotate h parent).2.mem grand).right = (h.mem grand).right) := by
    simp only [leftRotate, Heap.clone, Heap.alloc, Heap.setLeft, Heap.setRight, Heap.set]
    grind
  have e2 : ¬ parent = ((leftRotate h parent).2.mem grand).right := by rw [e]; exact fun h => hg h.symm
  have ei : innerL h parent grand =
      ((leftRotate h parent).1, (leftRotate h parent).2.setLeft grand (leftRotate h parent).1) := by
    simp only [innerL, if_neg e2]
  rw [ei]
  refine ⟨rfl, rfl, ?_⟩
  intro x
  simp only [leftRotate, Heap.clone, Heap.alloc, Heap.setLeft, Heap.setRight, Heap.set]
  grind

theorem innerR_spec (h : Heap) (new parent grand : Nat) (hr : (h.mem parent).left = new)
    (hg : (h.mem grand).left ≠ parent) (h0 : new ≠ parent)
    (h1 : parent ≠ grand) (h2 : parent < h.next) (h3 : grand < h.next) (h4 : new < h.next) :
    (innerR h parent grand).1 = h.next ∧ (innerR h parent grand).2.next = h.next + 1 ∧
    ∀ x, (innerR h parent grand).2.mem x =
      if x = h.next then { h.mem new with right := parent }
      else if x = parent then { h.mem parent with left := (h.mem new).right }
      else if x = grand then { h.mem grand with right := h.next }
      else h.mem x := by
  have e : (((rightRotate h parent).2.mem grand).left = (h.mem grand).left) := by
    simp only [rightRotate, Heap.clone, Heap.alloc, Heap.setLeft, Heap.setRight, Heap.set]
    grind
  have e2 : ¬ parent = ((rightRotate h parent).2.mem grand).left := by rw [e]; exact fun h => hg h.symm
  have ei : innerR h parent grand =
      ((rightRotate h parent).1, (rightRotate h parent).2.setRight grand (rightRotate h parent).1) := by
    simp only [innerR, if_neg e2]
  rw [ei]
  refine ⟨rfl, rfl, ?_⟩
  intro x
  simp only [rightRotate, Heap.clone, Heap.alloc, Heap.setLeft, Heap.setRight, Heap.set]
  grind

theorem innerL_ext (h : Heap) (n0 parent grand : Nat) (h1 : n0 ≤ parent) (h2 : n0 ≤ grand)
    (h3 : n0 ≤ h.next) : Ext n0 h (innerL h parent grand).2 := by
  have e : Ext n0 h (leftRotate h parent).2 :=
    (((Ext.refl n0 h).alloc _ h3).set _ _ h1).set _ _ h3
  unfold innerL
  simp only
  split
  · exact e.set _ _ h2
  · exact e.set _ _ h2

theorem innerR_ext (h : Heap) (n0 parent grand : Nat) (h1 : n0 ≤ parent) (h2 : n0 ≤ grand)
    (h3 : n0 ≤ h.next) : Ext n0 h (innerR h parent grand).2 := by
  have e : Ext n0 h (rightRotate h parent).2 :=
    (((Ext.refl n0 h).alloc _ h3).set _ _ h1).set _ _ h3
  unfold innerR
  simp only
  split
  · exact e.set _ _ h2
  · exact e.set _ _ h2

/-- util.cpp:245-252 and 288-295: hang the rotated subtree `n` where `grand` was. -/
theorem attach_ok {h h1 h2 : Heap} {s n0 grand n rest fs t} (hs : s < n0) (hng : n0 ≤ grand)
    (hgn : grand < n) (hlt : n < h1.next)
    (hctx : CtxRepr h s n0 grand grand rest fs)
    (hlo : ∀ x, x < grand → h1.mem x = h.mem x)
    (ht : Repr h1 s (fun x => x < n0 ∨ (grand ≤ x ∧ x < h1.next)) n t)
    (h2eq : match rest with
      | [] => h2 = h1
      | great :: _ => h2 = h1.setRight great n ∧ (h.mem great).right = grand ∨
          h2 = h1.setLeft great n ∧ (h.mem great).left = grand) :
    Repr h2 s (· < h2.next) (rootOf n0 n fs) (plug t fs) ∧ Ext n0 h1 h2 := by
  have hc1 : CtxRepr h1 s n0 grand grand rest fs := hctx.congr hng hlo
  cases rest with
  | nil =>
    cases fs with
    | cons => exact absurd hctx (by simp [CtxRepr])
    | nil =>
      simp only at h2eq
      subst h2eq
      refine ⟨?_, Ext.refl _ _⟩
      exact ht.mono (by intro x hx; omega)
  | cons great rest =>
    cases fs with
    | nil => exact absurd hctx (by simp [CtxRepr])
    | cons f fs =>
      obtain ⟨c1, c2, c3, c4, c5, c6⟩ := hc1
      simp only at h2eq
      have hg := hlo great (by omega)
      have key : ∀ (nd : Node), h2 = h1.set great nd → nd.red = (h1.mem great).red →
          nd.value = (h1.mem great).value →
          ((f.left = true ∧ nd.left = n ∧ nd.right = (h1.mem great).right) ∨
           (f.left = false ∧ nd.right = n ∧ nd.left = (h1.mem great).left)) →
          Repr h2 s (· < h2.next) (rootOf n0 n (f :: fs)) (plug t (f :: fs)) ∧ Ext n0 h1 h2 := by
        intro nd he hred hval hdir
        have hnx : h2.next = h1.next := by rw [he]; rfl
        have hm : ∀ x, x ≠ great → h2.mem x = h1.mem x := by
          intro x hx; rw [he]; simp only [Heap.set]; rw [if_neg hx]
        have hm' : h2.mem great = nd := by rw [he]; simp only [Heap.set, if_true]
        refine ⟨?_, by rw [he]; exact (Ext.refl _ _).set _ _ c2⟩
        have hctx2 : CtxRepr h2 s n0 grand n (great :: rest) (f :: fs) := by
          refine ⟨c1, c2, by rw [hm', hred]; exact c3, by rw [hm', hval]; exact c4, ?_, ?_⟩
          · rcases hdir with ⟨d1, d2, d3⟩ | ⟨d1, d2, d3⟩
            · rw [d1, if_pos rfl] at c5 ⊢
              rw [hm', d2, d3]
              exact ⟨rfl, c5.2.congr (fun x hx => hm x (by omega))⟩
            · rw [d1, if_neg (by simp)] at c5 ⊢
              rw [hm', d2, d3]
              exact ⟨rfl, c5.2.congr (fun x hx => hm x (by omega))⟩
          · exact c6.congr c2 (fun x hx => hm x (by omega))
        refine plug_repr hs hctx2 ?_ (fun x hx => by omega) hng
        have ht2 : Repr h2 s (fun x => x < n0 ∨ (grand ≤ x ∧ x < h1.next)) n t :=
          ht.congr (fun x hx => hm x (by omega))
        exact ht2.mono (fun x hx => by omega)
      rcases h2eq with ⟨he, hq⟩ | ⟨he, hq⟩
      · refine key _ he rfl rfl (Or.inr ⟨?_, rfl, rfl⟩)
        cases hf : f.left with
        | false => rfl
        | true =>
          rw [hf, if_pos rfl, hg, hq] at c5
          have := repr_lt hs c5.2
          omega
      · refine key _ he rfl rfl (Or.inl ⟨?_, rfl, rfl⟩)
        cases hf : f.left with
        | true => rfl
        | false =>
          rw [hf, if_neg (by simp), hg, hq] at c5
          have := repr_lt hs c5.2
          omega

theorem finishL {h h1 : Heap} {s n0 grand n parent new rest fs t} (fuel : Nat) (hs : s < n0)
    (hng : n0 ≤ grand) (hgn : grand < n) (hlt : n < h1.next)
    (hctx : CtxRepr h s n0 grand grand rest fs)
    (hlo : ∀ x, x < grand → h1.mem x = h.mem x)
    (hpar : grand < parent) (hred : (h1.mem parent).red = false)
    (ht : Repr h1 s (fun x => x < n0 ∨ (grand ≤ x ∧ x < h1.next)) n t) :
    ∃ root' h2, (match rest with
        | [] => addLoop (fuel + 1) h1 new n (parent :: grand :: rest)
        | great :: _ =>
          addLoop (fuel + 1) (if (h1.mem great).right = grand then h1.setRight great n
            else h1.setLeft great n) new n0 (parent :: grand :: rest)) = some (root', h2) ∧
      Ext n0 h1 h2 ∧ Repr h2 s (· < h2.next) root' (plug t fs) ∧ n0 ≤ root' := by
  cases rest with
  | nil =>
    have := attach_ok (h2 := h1) hs hng hgn hlt hctx hlo ht rfl
    refine ⟨n, h1, ?_, this.2, ?_, by omega⟩
    · simp [addLoop, hred]
    · cases fs with
      | nil => exact this.1
      | cons => exact absurd hctx (by simp [CtxRepr])
  | cons great rest =>
    cases fs with
    | nil => exact absurd hctx (by simp [CtxRepr])
    | cons f fs =>
      have hc := hctx
      obtain ⟨c1, c2, c3, c4, c5, c6⟩ := hctx
      have hg := hlo great (by omega)
      by_cases hq : (h1.mem great).right = grand
      · have := attach_ok (h2 := h1.setRight great n) hs hng hgn hlt hc hlo ht
          (Or.inl ⟨rfl, by rw [← hg]; exact hq⟩)
        refine ⟨n0, h1.setRight great n, ?_, this.2, this.1, Nat.le_refl _⟩
        have hr : ((h1.setRight great n).mem parent).red = false := by
          simp only [Heap.setRight, Heap.set]; rw [if_neg (by omega)]; exact hred
        simp [if_pos hq, addLoop, hr]
      · have hleft : (h.mem great).left = grand := by
          cases hf : f.left with
          | true => rw [hf, if_pos rfl] at c5; exact c5.1
          | false => rw [hf, if_neg (by simp), ← hg] at c5; exact absurd c5.1 hq
        have := attach_ok (h2 := h1.setLeft great n) hs hng hgn hlt hc hlo ht
          (Or.inr ⟨rfl, hleft⟩)
        refine ⟨n0, h1.setLeft great n, ?_, this.2, this.1, Nat.le_refl _⟩
        have hr : ((h1.setLeft great n).mem parent).red = false := by
          simp only [Heap.setLeft, Heap.set]; rw [if_neg (by omega)]; exact hred
        simp [if_neg hq, addLoop, hr]

theorem finishR {h h1 : Heap} {s n0 grand n parent new rest fs t} (fuel : Nat) (hs : s < n0)
    (hng : n0 ≤ grand) (hgn : grand < n) (hlt : n < h1.next)
    (hctx : CtxRepr h s n0 grand grand rest fs)
    (hlo : ∀ x, x < grand → h1.mem x = h.mem x)
    (hpar : grand < parent) (hred : (h1.mem parent).red = false)
    (ht : Repr h1 s (fun x => x < n0 ∨ (grand ≤ x ∧ x < h1.next)) n t) :
    ∃ root' h2, (match rest with
        | [] => addLoop (fuel + 1) h1 new n (parent :: grand :: rest)
        | great :: _ =>
          addLoop (fuel + 1) (if (h1.mem great).left = grand then h1.setLeft great n
            else h1.setRight great n) new n0 (parent :: grand :: rest)) = some (root', h2) ∧
      Ext n0 h1 h2 ∧ Repr h2 s (· < h2.next) root' (plug t fs) ∧ n0 ≤ root' := by
  cases rest with
  | nil =>
    have := attach_ok (h2 := h1) hs hng hgn hlt hctx hlo ht rfl
    refine ⟨n, h1, ?_, this.2, ?_, by omega⟩
    · simp [addLoop, hred]
    · cases fs with
      | nil => exact this.1
      | cons => exact absurd hctx (by simp [CtxRepr])
  | cons great rest =>
    cases fs with
    | nil => exact absurd hctx (by simp [CtxRepr])
    | cons f fs =>
      have hc := hctx
      obtain ⟨c1, c2, c3, c4, c5, c6⟩ := hctx
      have hg := hlo great (by omega)
      by_cases hq : (h1.mem great).left = grand
      · have := attach_ok (h2 := h1.setLeft great n) hs hng hgn hlt hc hlo ht
          (Or.inr ⟨rfl, by rw [← hg]; exact hq⟩)
        refine ⟨n0, h1.setLeft great n, ?_, this.2, this.1, Nat.le_refl _⟩
        have hr : ((h1.setLeft great n).mem parent).red = false := by
          simp only [Heap.setLeft, Heap.set]; rw [if_neg (by omega)]; exact hred
        simp [if_pos hq, addLoop, hr]
      · have hright : (h.mem great).right = grand := by
          cases hf : f.left with
          | false => rw [hf, if_neg (by simp)] at c5; exact c5.1
          | true => rw [hf, if_pos rfl, ← hg] at c5; exact absurd c5.1 hq
        have := attach_ok (h2 := h1.setRight great n) hs hng hgn hlt hc hlo ht
          (Or.inl ⟨rfl, hright⟩)
        refine ⟨n0, h1.setRight great n, ?_, this.2, this.1, Nat.le_refl _⟩
        have hr : ((h1.setRight great n).mem parent).red = false := by
          simp only [Heap.setRight, Heap.set]; rw [if_neg (by omega)]; exact hred
        simp [if_neg hq, addLoop, hr]

/-! ### The rebalancing loop -/

theorem addLoop_ok (s n0 : Nat) (hs : s < n0) (t : T) (ctx : List Frame) (t' : T)
    (hfix : fix t ctx = some t') :
    ∀ (fuel : Nat) (h : Heap) (new : Nat) (anc : List Nat), ctx.length + 2 ≤ fuel →
    Sent h s → n0 ≤ new → new < h.next → 0 < t.size →
    CtxRepr h s n0 new new anc ctx →
    Repr h s (fun x => x < n0 ∨ (new ≤ x ∧ x < h.next)) new t →
    ∃ root' h', addLoop fuel h new n0 anc = some (root', h') ∧ Ext n0 h h' ∧
      Repr h' s (· < h'.next) root' t' ∧ n0 ≤ root' := by
  fun_induction fix t ctx with
  | case1 t =>
    cases hfix
    intro fuel h new anc hf hsent hn hlt hsz hctx ht
    obtain ⟨rfl, he⟩ := ctx_empty_lim hctx
    obtain ⟨fuel, rfl⟩ : ∃ k, fuel = k + 1 := ⟨fuel - 1, by simp at hf; omega⟩
    refine ⟨n0, h, by simp [addLoop], Ext.refl _ _, ?_, Nat.le_refl _⟩
    rw [← he]
    exact ht.mono (fun x hx => by omega)
  | case2 => cases hfix
  | case3 t p hpr g rest' hu ih =>
    intro fuel h new anc hf hsent hn hlt hsz hctx ht
    obtain ⟨fuel, rfl⟩ : ∃ k, fuel = k + 1 := ⟨fuel - 1, by simp at hf; omega⟩
    obtain _ | ⟨pa, _ | ⟨ga, as⟩⟩ := anc
    · exact absurd hctx (by simp [CtxRepr])
    · exact absurd hctx.2.2.2.2.2 (by simp [CtxRepr])
    obtain ⟨p1, p2, p3, p4, p5, g1, g2, g3, g4, g5, hc⟩ := hctx
    have hsz' : 0 < (recolor t p g).size := by
      unfold recolor plug1
      cases p.left <;> cases g.left <;> simp [T.size]
    rw [hpr] at p3
    cases hgl : g.left with
    | true =>
      rw [hgl, if_pos rfl] at g5
      have hru : (h.mem (h.mem ga).right).red = true := by rw [repr_red hsent g5.2]; exact hu
      have hult := repr_lt hs g5.2
      unfold addLoop
      simp only [p3, if_true, if_pos g5.1.symm, hru]
      generalize hh : Heap.setRed _ ga true = h2
      have hm : ∀ x, h2.mem x = if x = ga then { h.mem ga with right := h.next, red := true }
          else if x = h.next then { h.mem (h.mem ga).right with red := false }
          else if x = pa then { h.mem pa with red := false } else h.mem x := by
        intro x
        rw [← hh]
        simp only [Heap.setRed, Heap.setRight, Heap.set, Heap.clone, Heap.alloc]
        grind
      have hnx : h2.next = h.next + 1 := by rw [← hh]; rfl
      have he : Ext n0 h h2 := by
        rw [← hh]
        refine Ext.set (Ext.set (Ext.set (Ext.alloc (Ext.set (Ext.refl n0 h) _ _ p2) _
          (by omega)) _ _ g2) _ _ ?_) _ _ g2
        simp only [Heap.setRed, Heap.setRight, Heap.set, Heap.clone, Heap.alloc]
        simp
        omega
      have hlo : ∀ x, x < n0 → h2.mem x = h.mem x := he.mem
      have hctx' : CtxRepr h2 s n0 ga ga as rest' := by
        refine hc.congr g2 ?_
        intro x hx
        rw [hm, if_neg (by omega), if_neg (by omega), if_neg (by omega)]
      have hmg : h2.mem ga = { h.mem ga with right := h.next, red := true } := by
        rw [hm, if_pos rfl]
      have hmp : h2.mem pa = { h.mem pa with red := false } := by
        rw [hm, if_neg (by omega), if_neg (by omega), if_pos rfl]
      have hmn : h2.mem h.next = { h.mem (h.mem ga).right with red := false } := by
        rw [hm, if_neg (by omega), if_pos rfl]
      have ht' : Repr h2 s (fun x => x < n0 ∨ (ga ≤ x ∧ x < h2.next)) new t :=
        (ht.congr (h' := h2) (fun x hx => by
          rw [hm, if_neg (by omega), if_neg (by omega), if_neg (by omega)])).mono
          (fun x hx => by omega)
      have low : ∀ {a t}, Repr h s (· < n0) a t →
          Repr h2 s (fun x => x < n0 ∨ (ga ≤ x ∧ x < h2.next)) a t :=
        fun hr => (hr.congr hlo).mono (fun x hx => Or.inl hx)
      have hpt : Repr h2 s (fun x => x < n0 ∨ (ga ≤ x ∧ x < h2.next)) pa
          (plug1 t { p with red := false }) := by
        unfold plug1
        cases hpl : p.left with
        | true =>
          rw [hpl, if_pos rfl] at p5
          refine ⟨by omega, by omega, by rw [hmp], by rw [hmp]; exact p4, ?_, ?_⟩
          · rw [hmp]; simp only; rw [p5.1]; exact ht'
          · rw [hmp]; exact low p5.2
        | false =>
          rw [hpl, if_neg (by simp)] at p5
          refine ⟨by omega, by omega, by rw [hmp], by rw [hmp]; exact p4, ?_, ?_⟩
          · rw [hmp]; exact low p5.2
          · rw [hmp]; simp only; rw [p5.1]; exact ht'
      have hut : Repr h2 s (fun x => x < n0 ∨ (ga ≤ x ∧ x < h2.next)) h.next g.sib.black := by
        cases hsib : g.sib with
        | leaf => rw [hsib] at hu; simp [T.isRed] at hu
        | node ur ul uv urr =>
          rw [hsib] at g5
          obtain ⟨_, u1, u2, u3, u4, u5, u6⟩ := g5
          refine ⟨by omega, by omega, by rw [hmn], by rw [hmn]; exact u4, ?_, ?_⟩
          · rw [hmn]; exact low u5
          · rw [hmn]; exact low u6
      have hgt : Repr h2 s (fun x => x < n0 ∨ (ga ≤ x ∧ x < h2.next)) ga (recolor t p g) := by
        unfold recolor
        generalize plug1 t { p with red := false } = pt at *
        unfold plug1
        rw [hgl, if_pos rfl]
        refine ⟨by omega, by omega, by rw [hmg], by rw [hmg]; exact g4, ?_, ?_⟩
        · rw [hmg]; simp only; rw [g5.1]; exact hpt
        · rw [hmg]; exact hut
      have hsent' : Sent h2 s := by
        have e := hlo s hs
        exact ⟨by rw [e]; exact hsent.red, by rw [e]; exact hsent.left, by rw [e]; exact hsent.right⟩
      obtain ⟨root', h', r1, r2, r3⟩ := ih hfix fuel h2 ga as (by simp at hf; omega) hsent' g2
        (by omega) hsz' hctx' hgt
      exact ⟨root', h', r1, he.trans r2, r3⟩
    | false =>
      rw [hgl, if_neg (by simp)] at g5
      have hru : (h.mem (h.mem ga).left).red = true := by rw [repr_red hsent g5.2]; exact hu
      have hult := repr_lt hs g5.2
      have hne : ¬ pa = (h.mem ga).left := by omega
      unfold addLoop
      simp only [p3, if_true, if_neg hne, hru]
      generalize hh : Heap.setRed _ ga true = h2
      have hm : ∀ x, h2.mem x = if x = ga then { h.mem ga with left := h.next, red := true }
          else if x = h.next then { h.mem (h.mem ga).left with red := false }
          else if x = pa then { h.mem pa with red := false } else h.mem x := by
        intro x
        rw [← hh]
        simp only [Heap.setRed, Heap.setLeft, Heap.set, Heap.clone, Heap.alloc]
        grind
      have hnx : h2.next = h.next + 1 := by rw [← hh]; rfl
      have he : Ext n0 h h2 := by
        rw [← hh]
        refine Ext.set (Ext.set (Ext.set (Ext.alloc (Ext.set (Ext.refl n0 h) _ _ p2) _
          (by omega)) _ _ g2) _ _ ?_) _ _ g2
        simp only [Heap.setRed, Heap.setLeft, Heap.set, Heap.clone, Heap.alloc]
        simp
        omega
      have hlo : ∀ x, x < n0 → h2.mem x = h.mem x := he.mem
      have hctx' : CtxRepr h2 s n0 ga ga as rest' := by
        refine hc.congr g2 ?_
        intro x hx
        rw [hm, if_neg (by omega), if_neg (by omega), if_neg (by omega)]
      have hmg : h2.mem ga = { h.mem ga with left := h.next, red := true } := by
        rw [hm, if_pos rfl]
      have hmp : h2.mem pa = { h.mem pa with red := false } := by
        rw [hm, if_neg (by omega), if_neg (by omega), if_pos rfl]
      have hmn : h2.mem h.next = { h.mem (h.mem ga).left with red := false } := by
        rw [hm, if_neg (by omega), if_pos rfl]
      have ht' : Repr h2 s (fun x => x < n0 ∨ (ga ≤ x ∧ x < h2.next)) new t :=
        (ht.congr (h' := h2) (fun x hx => by
          rw [hm, if_neg (by omega), if_neg (by omega), if_neg (by omega)])).mono
          (fun x hx => by omega)
      have low : ∀ {a t}, Repr h s (· < n0) a t →
          Repr h2 s (fun x => x < n0 ∨ (ga ≤ x ∧ x < h2.next)) a t :=
        fun hr => (hr.congr hlo).mono (fun x hx => Or.inl hx)
      have hpt : Repr h2 s (fun x => x < n0 ∨ (ga ≤ x ∧ x < h2.next)) pa
          (plug1 t { p with red := false }) := by
        unfold plug1
        cases hpl : p.left with
        | true =>
          rw [hpl, if_pos rfl] at p5
          refine ⟨by omega, by omega, by rw [hmp], by rw [hmp]; exact p4, ?_, ?_⟩
          · rw [hmp]; simp only; rw [p5.1]; exact ht'
          · rw [hmp]; exact low p5.2
        | false =>
          rw [hpl, if_neg (by simp)] at p5
          refine ⟨by omega, by omega, by rw [hmp], by rw [hmp]; exact p4, ?_, ?_⟩
          · rw [hmp]; exact low p5.2
          · rw [hmp]; simp only; rw [p5.1]; exact ht'
      have hut : Repr h2 s (fun x => x < n0 ∨ (ga ≤ x ∧ x < h2.next)) h.next g.sib.black := by
        cases hsib : g.sib with
        | leaf => rw [hsib] at hu; simp [T.isRed] at hu
        | node ur ul uv urr =>
          rw [hsib] at g5
          obtain ⟨_, u1, u2, u3, u4, u5, u6⟩ := g5
          refine ⟨by omega, by omega, by rw [hmn], by rw [hmn]; exact u4, ?_, ?_⟩
          · rw [hmn]; exact low u5
          · rw [hmn]; exact low u6
      have hgt : Repr h2 s (fun x => x < n0 ∨ (ga ≤ x ∧ x < h2.next)) ga (recolor t p g) := by
        unfold recolor
        generalize plug1 t { p with red := false } = pt at *
        unfold plug1
        rw [hgl, if_neg (by simp)]
        refine ⟨by omega, by omega, by rw [hmg], by rw [hmg]; exact g4, ?_, ?_⟩
        · rw [hmg]; exact hut
        · rw [hmg]; simp only; rw [g5.1]; exact hpt
      have hsent' : Sent h2 s := by
        have e := hlo s hs
        exact ⟨by rw [e]; exact hsent.red, by rw [e]; exact hsent.left, by rw [e]; exact hsent.right⟩
      obtain ⟨root', h', r1, r2, r3⟩ := ih hfix fuel h2 ga as (by simp at hf; omega) hsent' g2
        (by omega) hsz' hctx' hgt
      exact ⟨root', h', r1, he.trans r2, r3⟩
  | case4 t p hpr g rest' hu =>
    cases hfix
    intro fuel h new anc hf hsent hn hlt hsz hctx ht
    obtain ⟨fuel, rfl⟩ : ∃ k, fuel = k + 2 := ⟨fuel - 2, by simp at hf; omega⟩
    obtain _ | ⟨pa, _ | ⟨ga, as⟩⟩ := anc
    · exact absurd hctx (by simp [CtxRepr])
    · exact absurd hctx.2.2.2.2.2 (by simp [CtxRepr])
    obtain ⟨p1, p2, p3, p4, p5, g1, g2, g3, g4, g5, hc⟩ := hctx
    have hu' : g.sib.isRed = false := by simpa using hu
    rw [hpr] at p3
    cases hgl : g.left with
    | true =>
      rw [hgl, if_pos rfl] at g5
      have hru : (h.mem (h.mem ga).right).red = false := by rw [repr_red hsent g5.2]; exact hu'
      have hult := repr_lt hs g5.2
      cases hpl : p.left with
      | true =>
        rw [hpl, if_pos rfl] at p5
        have hpslt := repr_lt hs p5.2
        have hne : ¬ new = (h.mem pa).right := by omega
        have spec := outerL_spec h pa ga g5.1 (by omega) (by omega) (by omega)
        have ext := outerL_ext h n0 pa ga p2 g2 (by omega)
        have e1 : outerL h pa ga = rightRotate ((h.setRed pa false).setRed ga true) ga := rfl
        unfold addLoop
        simp only [p3, if_true, if_pos g5.1.symm, hru, if_neg hne, Bool.false_eq_true, if_false]
        rw [← e1]
        obtain ⟨s1, s2, s3⟩ := spec
        generalize outerL h pa ga = q at *
        obtain ⟨n, h1⟩ := q
        simp only at s1 s2 s3 ext ⊢
        subst s1
        obtain ⟨root', h2, r1, r2, r3⟩ := finishL (h := h) (h1 := h1) (s := s) (n0 := n0)
          (grand := ga) (n := h.next) (parent := pa) (new := new) (rest := as) (fs := rest')
          (t := rotate t p g) fuel hs g2 (by omega) (by omega) hc
          (fun x hx => by rw [s3, if_neg (by omega), if_neg (by omega), if_neg (by omega)])
          (by omega) (by rw [s3, if_neg (by omega), if_neg (by omega), if_pos rfl]) (by
            have low : ∀ {a t}, Repr h s (· < n0) a t →
                Repr h1 s (fun x => x < n0 ∨ (ga ≤ x ∧ x < h1.next)) a t :=
              fun hr => (hr.congr ext.mem).mono (fun x hx => Or.inl hx)
            have ht' : Repr h1 s (fun x => x < n0 ∨ (ga ≤ x ∧ x < h1.next)) new t :=
              (ht.congr (h' := h1) (fun x hx => by
                rw [s3, if_neg (by omega), if_neg (by omega), if_neg (by omega)])).mono
                (fun x hx => by omega)
            have mn := s3 h.next
            rw [if_pos rfl] at mn
            have mg := s3 ga
            rw [if_neg (by omega), if_pos rfl] at mg
            unfold rotate
            rw [hgl, hpl, if_pos rfl, if_pos rfl]
            refine ⟨by omega, by omega, by rw [mn], by rw [mn]; exact p4, ?_, ?_⟩
            · rw [mn]; simp only; rw [p5.1]; exact ht'
            · rw [mn]; simp only
              refine ⟨by omega, by omega, by rw [mg], by rw [mg]; exact g4, ?_, ?_⟩
              · rw [mg]; exact low p5.2
              · rw [mg]; exact low g5.2)
        exact ⟨root', h2, r1, ext.trans r2, r3⟩
      | false =>
        rw [hpl, if_neg (by simp)] at p5
        have hpslt := repr_lt hs p5.2
        have ispec := innerL_spec h new pa ga p5.1 (by omega) (by omega) (by omega) (by omega)
          (by omega) (by omega)
        have iext := innerL_ext h n0 pa ga p2 g2 (by omega)
        unfold addLoop
        simp only [p3, if_true, if_pos g5.1.symm, hru, if_pos p5.1.symm, Bool.false_eq_true,
          if_false]
        have ei : innerL h pa ga = ((leftRotate h pa).1,
            if pa = ((leftRotate h pa).2.mem ga).right then
              (leftRotate h pa).2.setRight ga (leftRotate h pa).1
            else (leftRotate h pa).2.setLeft ga (leftRotate h pa).1) := rfl
        have ei1 : (innerL h pa ga).1 = (leftRotate h pa).1 := rfl
        have ei2 : (innerL h pa ga).2 = if pa = ((leftRotate h pa).2.mem ga).right then
              (leftRotate h pa).2.setRight ga (leftRotate h pa).1
            else (leftRotate h pa).2.setLeft ga (leftRotate h pa).1 := rfl
        rw [← ei2, ← ei1]
        obtain ⟨i1, i2, i3⟩ := ispec
        generalize innerL h pa ga = q at *
        obtain ⟨c, hi⟩ := q
        simp only at i1 i2 i3 iext ⊢
        subst i1
        have mic := i3 h.next
        rw [if_pos rfl] at mic
        have mig := i3 ga
        rw [if_neg (by omega), if_neg (by omega), if_pos rfl] at mig
        have mip := i3 pa
        rw [if_neg (by omega), if_pos rfl] at mip
        have spec := outerL_spec hi h.next ga (by rw [mig]) (by omega) (by omega) (by omega)
        have ext := outerL_ext hi n0 h.next ga (by omega) g2 (by omega)
        have e1 : outerL hi h.next ga =
          rightRotate ((hi.setRed h.next false).setRed ga true) ga := rfl
        rw [← e1]
        obtain ⟨s1, s2, s3⟩ := spec
        generalize outerL hi h.next ga = q at *
        obtain ⟨n, h1⟩ := q
        simp only at s1 s2 s3 ext ⊢
        subst s1
        rw [i2] at s2 s3
        have hlow : ∀ x, x < ga → h1.mem x = h.mem x := fun x hx => by
            rw [s3, if_neg (by omega), if_neg (by omega), if_neg (by omega), i3,
              if_neg (by omega), if_neg (by omega), if_neg (by omega)]
        obtain ⟨root', h2, r1, r2, r3⟩ := finishL (h := h) (h1 := h1) (s := s) (n0 := n0)
          (grand := ga) (n := hi.next) (parent := h.next) (new := pa) (rest := as) (fs := rest')
          (t := rotate t p g) fuel hs g2 (by omega) (by omega) hc hlow
          (by omega) (by rw [s3, if_neg (by omega), if_neg (by omega), if_pos rfl]) (by
            have low : ∀ {a t}, Repr h s (· < n0) a t →
                Repr h1 s (fun x => x < n0 ∨ (ga ≤ x ∧ x < h1.next)) a t :=
              fun hr => (hr.congr (fun x hx => hlow x (by omega))).mono (fun x hx => Or.inl hx)
            have mn := s3 (h.next + 1)
            rw [if_pos rfl] at mn
            have mg := s3 ga
            rw [if_neg (by omega), if_pos rfl] at mg
            have mp := s3 pa
            rw [if_neg (by omega), if_neg (by omega), if_neg (by omega), mip] at mp
            rw [mic] at mn mg
            rw [mig] at mg
            rw [i2]
            cases t with
            | leaf => simp [T.size] at hsz
            | node tred tl tv tr =>
              have ht0 := ht
              obtain ⟨t1, t2, t3, t4, t5, t6⟩ := ht
              have sub : ∀ {a u}, Repr h s (fun x => x < n0 ∨ (new ≤ x ∧ x < h.next)) a u →
                  Repr h1 s (fun x => x < n0 ∨ (ga ≤ x ∧ x < h1.next)) a u :=
                fun hr => (hr.congr (h' := h1) (fun x hx => by
                  rw [s3, if_neg (by omega), if_neg (by omega), if_neg (by omega), i3,
                    if_neg (by omega), if_neg (by omega), if_neg (by omega)])).mono
                  (fun x hx => by omega)
              unfold rotate
              rw [hgl, hpl, if_pos rfl, if_neg (by simp)]
              refine ⟨by omega, by omega, by rw [mn], by rw [mn]; exact t4, ?_, ?_⟩
              · rw [mn]; simp only
                refine ⟨by omega, by omega, by rw [mp]; simp only; rw [p3, hpr],
                  by rw [mp]; exact p4, ?_, ?_⟩
                · rw [mp]; exact low p5.2
                · rw [mp]; exact sub t5
              · rw [mn]; simp only
                refine ⟨by omega, by omega, by rw [mg], by rw [mg]; exact g4, ?_, ?_⟩
                · rw [mg]; exact sub t6
                · rw [mg]; exact low g5.2)
        exact ⟨root', h2, r1, (iext.trans ext).trans r2, r3⟩
    | false =>
      rw [hgl, if_neg (by simp)] at g5
      have hru : (h.mem (h.mem ga).left).red = false := by rw [repr_red hsent g5.2]; exact hu'
      have hult := repr_lt hs g5.2
      have hgne : ¬ pa = (h.mem ga).left := by omega
      cases hpl : p.left with
      | false =>
        rw [hpl, if_neg (by simp)] at p5
        have hpslt := repr_lt hs p5.2
        have hne : ¬ new = (h.mem pa).left := by omega
        have spec := outerR_spec h pa ga g5.1 (by omega) (by omega) (by omega)
        have ext := outerR_ext h n0 pa ga p2 g2 (by omega)
        have e1 : outerR h pa ga = leftRotate ((h.setRed pa false).setRed ga true) ga := rfl
        unfold addLoop
        simp only [p3, if_true, if_neg hgne, hru, if_neg hne, Bool.false_eq_true, if_false]
        rw [← e1]
        obtain ⟨s1, s2, s3⟩ := spec
        generalize outerR h pa ga = q at *
        obtain ⟨n, h1⟩ := q
        simp only at s1 s2 s3 ext ⊢
        subst s1
        obtain ⟨root', h2, r1, r2, r3⟩ := finishR (h := h) (h1 := h1) (s := s) (n0 := n0)
          (grand := ga) (n := h.next) (parent := pa) (new := new) (rest := as) (fs := rest')
          (t := rotate t p g) fuel hs g2 (by omega) (by omega) hc
          (fun x hx => by rw [s3, if_neg (by omega), if_neg (by omega), if_neg (by omega)])
          (by omega) (by rw [s3, if_neg (by omega), if_neg (by omega), if_pos rfl]) (by
            have low : ∀ {a t}, Repr h s (· < n0) a t →
                Repr h1 s (fun x => x < n0 ∨ (ga ≤ x ∧ x < h1.next)) a t :=
              fun hr => (hr.congr ext.mem).mono (fun x hx => Or.inl hx)
            have ht' : Repr h1 s (fun x => x < n0 ∨ (ga ≤ x ∧ x < h1.next)) new t :=
              (ht.congr (h' := h1) (fun x hx => by
                rw [s3, if_neg (by omega), if_neg (by omega), if_neg (by omega)])).mono
                (fun x hx => by omega)
            have mn := s3 h.next
            rw [if_pos rfl] at mn
            have mg := s3 ga
            rw [if_neg (by omega), if_pos rfl] at mg
            unfold rotate
            rw [hgl, hpl, if_neg (by simp), if_neg (by simp)]
            refine ⟨by omega, by omega, by rw [mn], by rw [mn]; exact p4, ?_, ?_⟩
            · rw [mn]; simp only
              refine ⟨by omega, by omega, by rw [mg], by rw [mg]; exact g4, ?_, ?_⟩
              · rw [mg]; exact low g5.2
              · rw [mg]; exact low p5.2
            · rw [mn]; simp only; rw [p5.1]; exact ht')
        exact ⟨root', h2, r1, ext.trans r2, r3⟩
      | true =>
        rw [hpl, if_pos rfl] at p5
        have hpslt := repr_lt hs p5.2
        have ispec := innerR_spec h new pa ga p5.1 (by omega) (by omega) (by omega) (by omega)
          (by omega) (by omega)
        have iext := innerR_ext h n0 pa ga p2 g2 (by omega)
        unfold addLoop
        simp only [p3, if_true, if_neg hgne, hru, if_pos p5.1.symm, Bool.false_eq_true,
          if_false]
        have ei1 : (innerR h pa ga).1 = (rightRotate h pa).1 := rfl
        have ei2 : (innerR h pa ga).2 = if pa = ((rightRotate h pa).2.mem ga).left then
              (rightRotate h pa).2.setLeft ga (rightRotate h pa).1
            else (rightRotate h pa).2.setRight ga (rightRotate h pa).1 := rfl
        rw [← ei2, ← ei1]
        obtain ⟨i1, i2, i3⟩ := ispec
        generalize innerR h pa ga = q at *
        obtain ⟨c, hi⟩ := q
        simp only at i1 i2 i3 iext ⊢
        subst i1
        have mic := i3 h.next
        rw [if_pos rfl] at mic
        have mig := i3 ga
        rw [if_neg (by omega), if_neg (by omega), if_pos rfl] at mig
        have mip := i3 pa
        rw [if_neg (by omega), if_pos rfl] at mip
        have spec := outerR_spec hi h.next ga (by rw [mig]) (by omega) (by omega) (by omega)
        have ext := outerR_ext hi n0 h.next ga (by omega) g2 (by omega)
        have e1 : outerR hi h.next ga =
          leftRotate ((hi.setRed h.next false).setRed ga true) ga := rfl
        rw [← e1]
        obtain ⟨s1, s2, s3⟩ := spec
        generalize outerR hi h.next ga = q at *
        obtain ⟨n, h1⟩ := q
        simp only at s1 s2 s3 ext ⊢
        subst s1
        rw [i2] at s2 s3
        have hlow : ∀ x, x < ga → h1.mem x = h.mem x := fun x hx => by
            rw [s3, if_neg (by omega), if_neg (by omega), if_neg (by omega), i3,
              if_neg (by omega), if_neg (by omega), if_neg (by omega)]
        obtain ⟨root', h2, r1, r2, r3⟩ := finishR (h := h) (h1 := h1) (s := s) (n0 := n0)
          (grand := ga) (n := hi.next) (parent := h.next) (new := pa) (rest := as) (fs := rest')
          (t := rotate t p g) fuel hs g2 (by omega) (by omega) hc hlow
          (by omega) (by rw [s3, if_neg (by omega), if_neg (by omega), if_pos rfl]) (by
            have low : ∀ {a t}, Repr h s (· < n0) a t →
                Repr h1 s (fun x => x < n0 ∨ (ga ≤ x ∧ x < h1.next)) a t :=
              fun hr => (hr.congr (fun x hx => hlow x (by omega))).mono (fun x hx => Or.inl hx)
            have mn := s3 (h.next + 1)
            rw [if_pos rfl] at mn
            have mg := s3 ga
            rw [if_neg (by omega), if_pos rfl] at mg
            have mp := s3 pa
            rw [if_neg (by omega), if_neg (by omega), if_neg (by omega), mip] at mp
            rw [mic] at mn mg
            rw [mig] at mg
            rw [i2]
            cases t with
            | leaf => simp [T.size] at hsz
            | node tred tl tv tr =>
              have ht0 := ht
              obtain ⟨t1, t2, t3, t4, t5, t6⟩ := ht
              have sub : ∀ {a u}, Repr h s (fun x => x < n0 ∨ (new ≤ x ∧ x < h.next)) a u →
                  Repr h1 s (fun x => x < n0 ∨ (ga ≤ x ∧ x < h1.next)) a u :=
                fun hr => (hr.congr (h' := h1) (fun x hx => by
                  rw [s3, if_neg (by omega), if_neg (by omega), if_neg (by omega), i3,
                    if_neg (by omega), if_neg (by omega), if_neg (by omega)])).mono
                  (fun x hx => by omega)
              unfold rotate
              rw [hgl, hpl, if_neg (by simp), if_pos rfl]
              refine ⟨by omega, by omega, by rw [mn], by rw [mn]; exact t4, ?_, ?_⟩
              · rw [mn]; simp only
                refine ⟨by omega, by omega, by rw [mg], by rw [mg]; exact g4, ?_, ?_⟩
                · rw [mg]; exact low g5.2
                · rw [mg]; exact sub t5
              · rw [mn]; simp only
                refine ⟨by omega, by omega, by rw [mp]; simp only; rw [p3, hpr],
                  by rw [mp]; exact p4, ?_, ?_⟩
                · rw [mp]; exact sub t6
                · rw [mp]; exact low p5.2)
        exact ⟨root', h2, r1, (iext.trans ext).trans r2, r3⟩
  | case5 t p rest hpr =>
    cases hfix
    intro fuel h new anc hf hsent hn hlt hsz hctx ht
    obtain ⟨fuel, rfl⟩ : ∃ k, fuel = k + 1 := ⟨fuel - 1, by simp at hf; omega⟩
    obtain _ | ⟨pa, as⟩ := anc
    · exact absurd hctx (by simp [CtxRepr])
    have hr : (h.mem pa).red = false := by rw [hctx.2.2.1]; simpa using hpr
    refine ⟨n0, h, by simp [addLoop, hr], Ext.refl _ _, ?_, Nat.le_refl _⟩
    have := plug_repr hs hctx (ht.mono (Q := (· < h.next)) (fun x hx => by omega))
      (fun x hx => by omega) hn
    exact this

/-! ### Whole insertion -/

theorem path_length (key : Int) (b : Nat) (t : T) (fs fs' : List Frame)
    (h : path key b t fs = some fs') : fs'.length ≤ fs.length + b := by
  fun_induction path key b t fs with
  | case1 => cases h; omega
  | case2 => cases h
  | case3 b red l v r fs _ ih => have := ih h; simp at this; omega
  | case4 b red l v r fs _ _ ih => have := ih h; simp at this; omega
  | case5 => cases h

theorem insert_refines (h : Heap) (s root : Nat) (t t' : T) (key : Int) (m : Method)
    (hs : s < h.next) (hsent : Sent h s) (hr : Repr h s (· < h.next) root t)
    (hi : t.insert key m = some t') :
    ∃ root' h', insert h s root key m = some (root', h') ∧ Ext h.next h h' ∧ Sent h' s ∧
      Repr h' s (· < h'.next) root' t' := by
  unfold T.insert at hi
  cases hp : path key 100 t [] with
  | none => simp [hp] at hi
  | some fs =>
  cases hf : fix (.node true .leaf m .leaf) fs with
  | none => simp [hp, hf] at hi
  | some t1 =>
  simp [hp, hf] at hi
  subst hi
  have hroot : root < h.next := by
    cases t with
    | leaf => have : root = s := hr; omega
    | node => exact hr.2.1
  unfold insert
  generalize ha : h.alloc { value := m, red := false, left := s, right := s } = q
  obtain ⟨dummy, h1⟩ := q
  have h1n : h1.next = h.next + 1 := by
    have : (h.alloc { value := m, red := false, left := s, right := s }).2 = h1 := by rw [ha]
    rw [← this]; rfl
  have h1e : Ext h.next h h1 := by
    have : (h.alloc { value := m, red := false, left := s, right := s }).2 = h1 := by rw [ha]
    rw [← this]; exact (Ext.refl _ _).alloc _ (Nat.le_refl _)
  generalize hb : h1.clone root = q
  obtain ⟨new, h2⟩ := q
  have hnew : new = h1.next := by
    have : (h1.clone root).1 = new := by rw [hb]
    rw [← this]; rfl
  have h2n : h2.next = h1.next + 1 := by
    have : (h1.clone root).2 = h2 := by rw [hb]
    rw [← this]; rfl
  have h2m : ∀ x, h2.mem x = if x = h1.next then h1.mem root else h1.mem x := by
    have : (h1.clone root).2 = h2 := by rw [hb]
    rw [← this]; intro x; rfl
  have h2e : Ext h.next h1 h2 := by
    have : (h1.clone root).2 = h2 := by rw [hb]
    rw [← this]; exact (Ext.refl _ _).alloc _ (by omega)
  have e02 := h1e.trans h2e
  have hsent2 : Sent h2 s := by
    have e := e02.mem s hs
    exact ⟨by rw [e]; exact hsent.red, by rw [e]; exact hsent.left, by rw [e]; exact hsent.right⟩
  obtain ⟨h3, new', anc', f1, f2, f3, f4, f5, f6, f7⟩ :=
    findPath_ok s h1.next key m (by omega) 100 t [] fs h2 root new [] hp hsent2
      ((hr.congr e02.mem).mono (fun x hx => by omega))
      (by rw [hnew, h2m, if_pos rfl, h2m, if_neg (by omega)])
      (by omega) (by omega)
      (by rw [hnew]; rfl)
  have hlen := path_length _ _ _ _ _ hp
  have h4m : ∀ x, (h3.setRed new' true).mem x =
      if x = new' then { value := m, red := true, left := s, right := s } else h3.mem x := by
    intro x
    simp only [Heap.setRed, Heap.set, f6]
  have h4lo : ∀ x, x < new' → (h3.setRed new' true).mem x = h3.mem x := by
    intro x hx; rw [h4m, if_neg (by omega)]
  obtain ⟨root', h5, l1, l2, l3, hrge⟩ :=
    addLoop_ok s h1.next (by omega) (.node true .leaf m .leaf) fs t1 hf 102
      (h3.setRed new' true) new' anc' (by simp at hlen; omega)
      (by
        have e := h4lo s (by omega)
        exact ⟨by rw [e]; exact f3.red, by rw [e]; exact f3.left, by rw [e]; exact f3.right⟩)
      f4 (by show new' < h3.next; omega) (by simp [T.size])
      (f7.congr f4 h4lo)
      (by
        have hn : h3.next = (h3.setRed new' true).next := rfl
        refine ⟨by omega, by omega, ?_, ?_, ?_, ?_⟩ <;> rw [h4m, if_pos rfl]
        · rfl
        · rfl)
  have e5 : Ext h1.next h2 h5 := (f2.set new' _ f4).trans l2
  have hsent5 : Sent h5 s := by
    have e := e5.mem s (by omega)
    exact ⟨by rw [e]; exact hsent2.red, by rw [e]; exact hsent2.left,
      by rw [e]; exact hsent2.right⟩
  refine ⟨root', h5.setRed root' false, ?_, ?_, ?_, ?_⟩
  · subst hnew
    simp [hb, f1, treeAdd, l1]
  · exact (e02.trans (e5.weaken (by omega))).set _ _ (by omega)
  · have e : (h5.setRed root' false).mem s = h5.mem s := by
      simp only [Heap.setRed, Heap.set]; rw [if_neg (by omega)]
    exact ⟨by rw [e]; exact hsent5.red, by rw [e]; exact hsent5.left, by rw [e]; exact hsent5.right⟩
  · cases t1 with
    | leaf => exact l3
    | node red l v r =>
      have l3' := l3
      obtain ⟨r1, r2, r3, r4, r5, r6⟩ := l3
      have mr : (h5.setRed root' false).mem root' = { h5.mem root' with red := false } := by
        simp only [Heap.setRed, Heap.set, if_true]
      have keep : ∀ {a u}, Repr h5 s (· < h5.next) a u → u.size < l.size + r.size + 1 →
          Repr (h5.setRed root' false) s (· < (h5.setRed root' false).next) a u := by
        intro a u hu hsz
        have := (hu.avoid l3' (by simp only [T.size]; exact hsz)).congr
          (h' := h5.setRed root' false) (fun x hx => by
            simp only [Heap.setRed, Heap.set]; rw [if_neg hx.2])
        exact this.mono (fun x hx => hx.1)
      refine ⟨r1, r2, by rw [mr], by rw [mr]; exact r4, ?_, ?_⟩
      · rw [mr]; exact keep r5 (by omega)
      · rw [mr]; exact keep r6 (by omega)

end Avian.Tree
