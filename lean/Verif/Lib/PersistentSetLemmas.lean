import Verif.Lib.PersistentSet

/-
The order of the elements and the shape of the trees of `Lib/PersistentSet`.
-/
namespace Avian.PersistentSet

variable {α : Type}

/-- The elements of a tree from left to right. -/
def T.inorder : T α → List α
  | .leaf => []
  | .node _ l v r => l.inorder ++ v :: r.inorder

/-- The number of nodes on the longest way down. -/
def T.depth : T α → Nat
  | .leaf => 0
  | .node _ l _ r => max l.depth r.depth + 1

/-- The elements left of a subtree. -/
def before : List (Frame α) → List α
  | [] => []
  | f :: fs => before fs ++ (if f.left then [] else f.sib.inorder ++ [f.v])

/-- The elements right of a subtree. -/
def after : List (Frame α) → List α
  | [] => []
  | f :: fs => (if f.left then f.v :: f.sib.inorder else []) ++ after fs

theorem inorder_plug (t : T α) (fs : List (Frame α)) :
    (plug t fs).inorder = before fs ++ t.inorder ++ after fs := by
  induction fs generalizing t with
  | nil => simp [plug, before, after]
  | cons f fs ih =>
    rw [plug, ih]
    unfold plug1 mk
    cases hf : f.left <;> simp [before, after, hf, T.inorder, List.append_assoc]

theorem inorder_paint (c : Bool) (t : T α) : (t.paint c).inorder = t.inorder := by cases t <;> rfl

theorem isRed_paint (t : T α) : (t.paint false).isRed = false := by cases t <;> rfl

theorem isRed_node (red : Bool) (l : T α) (v : α) (r : T α) : (T.node red l v r).isRed = red := rfl

theorem before_append (fs gs : List (Frame α)) : before (fs ++ gs) = before gs ++ before fs := by
  induction fs with
  | nil => simp [before]
  | cons f fs ih => simp [before, ih, List.append_assoc]

theorem after_append (fs gs : List (Frame α)) : after (fs ++ gs) = after fs ++ after gs := by
  induction fs with
  | nil => simp [after]
  | cons f fs ih => simp [after, ih, List.append_assoc]

theorem plug_append (t : T α) (fs gs : List (Frame α)) : plug t (fs ++ gs) = plug (plug t fs) gs := by
  induction fs generalizing t with
  | nil => rfl
  | cons f fs ih => simp [plug, ih]

/-! ### Red-black trees -/

/-- Red-black trees of black height `n`. -/
def RB : T α → Nat → Prop
  | .leaf, n => n = 0
  | .node true l _ r, n => RB l n ∧ RB r n ∧ l.isRed = false ∧ r.isRed = false
  | .node false l _ r, n => ∃ k, n = k + 1 ∧ RB l k ∧ RB r k

/-- The nearest node above is black. -/
def HeadBlack (fs : List (Frame α)) : Prop := ∃ g gs, fs = g :: gs ∧ g.red = false

/-- Nodes that form a red-black tree with a black root around a black tree of height `n`. -/
def CtxOK : List (Frame α) → Nat → Prop
  | [], _ => True
  | f :: fs, n =>
    RB f.sib n ∧
    if f.red then f.sib.isRed = false ∧ HeadBlack fs ∧ CtxOK fs n
    else CtxOK fs (n + 1)

/-- A subtree and the nodes above form a red-black tree with a black root. -/
def Good (t : T α) (fs : List (Frame α)) : Prop :=
  ∃ n, RB t n ∧ CtxOK fs n ∧ (t.isRed = true → HeadBlack fs)

theorem good_up {t : T α} {f : Frame α} {fs : List (Frame α)} (h : Good t (f :: fs)) : Good (plug1 t f) fs := by
  obtain ⟨n, ht, ⟨hs, hc⟩, hr⟩ := h
  cases hf : f.red with
  | true =>
    rw [hf, if_pos rfl] at hc
    have hb : t.isRed = false := by
      cases hq : t.isRed with
      | false => rfl
      | true => obtain ⟨g, gs, h, hg⟩ := hr hq; cases h; rw [hf] at hg; cases hg
    refine ⟨n, ?_, hc.2.2, fun _ => hc.2.1⟩
    unfold plug1 mk
    cases hl : f.left <;> simp [RB, hf, ht, hs, hc.1, hb]
  | false =>
    rw [hf, if_neg (by simp)] at hc
    refine ⟨n + 1, ?_, hc, ?_⟩
    · unfold plug1 mk
      cases hl : f.left <;> simp [RB, hf, ht, hs]
    · unfold plug1 mk
      cases hl : f.left <;> simp [hf, T.isRed]

theorem good_plug {t : T α} {fs : List (Frame α)} (h : Good t fs) :
    ∃ k, RB (plug t fs) k ∧ (plug t fs).isRed = false := by
  induction fs generalizing t with
  | nil =>
    obtain ⟨n, ht, _, hr⟩ := h
    refine ⟨n, ht, ?_⟩
    cases hq : t.isRed with
    | false => exact hq
    | true => obtain ⟨_, _, h, _⟩ := hr hq; cases h
  | cons f fs ih => exact ih (good_up h)

theorem good_left {red : Bool} {l r : T α} {v : α} {fs : List (Frame α)} (h : Good (.node red l v r) fs) :
    Good l (⟨true, red, v, r⟩ :: fs) := by
  obtain ⟨n, ht, hc, hr⟩ := h
  cases red with
  | true =>
    simp only [RB] at ht
    refine ⟨n, ht.1, ⟨ht.2.1, ?_⟩, ?_⟩
    · rw [if_pos rfl]; exact ⟨ht.2.2.2, hr rfl, hc⟩
    · rw [ht.2.2.1]; intro h; cases h
  | false =>
    simp only [RB] at ht
    obtain ⟨k, rfl, h1, h2⟩ := ht
    refine ⟨k, h1, ⟨h2, ?_⟩, ?_⟩
    · rw [if_neg (by simp)]; exact hc
    · intro _; exact ⟨_, _, rfl, rfl⟩

theorem good_right {red : Bool} {l r : T α} {v : α} {fs : List (Frame α)} (h : Good (.node red l v r) fs) :
    Good r (⟨false, red, v, l⟩ :: fs) := by
  obtain ⟨n, ht, hc, hr⟩ := h
  cases red with
  | true =>
    simp only [RB] at ht
    refine ⟨n, ht.2.1, ⟨ht.1, ?_⟩, ?_⟩
    · rw [if_pos rfl]; exact ⟨ht.2.2.1, hr rfl, hc⟩
    · rw [ht.2.2.2]; intro h; cases h
  | false =>
    simp only [RB] at ht
    obtain ⟨k, rfl, h1, h2⟩ := ht
    refine ⟨k, h2, ⟨h1, ?_⟩, ?_⟩
    · rw [if_neg (by simp)]; exact hc
    · intro _; exact ⟨_, _, rfl, rfl⟩

theorem good_value {red : Bool} {l r : T α} {v w : α} {fs : List (Frame α)} (h : Good (.node red l v r) fs) :
    Good (.node red l w r) fs := by
  obtain ⟨n, ht, hc, hr⟩ := h
  refine ⟨n, ?_, hc, hr⟩
  cases red <;> simpa only [RB] using ht

theorem good_nil {t : T α} {n : Nat} (h : RB t n) (hb : t.isRed = false) : Good t [] :=
  ⟨n, h, trivial, by rw [hb]; intro h; cases h⟩

theorem RB_paint_red {t : T α} {n : Nat} (h : RB t n) (hr : t.isRed = true) : RB (t.paint false) (n + 1) := by
  cases t with
  | leaf => simp [T.isRed] at hr
  | node red l v r =>
    simp only [T.isRed] at hr
    subst hr
    simp only [RB, T.paint] at h ⊢
    exact ⟨n, rfl, h.1, h.2.1⟩

theorem paint_black {t : T α} (h : t.isRed = false) : t.paint false = t := by
  cases t with
  | leaf => rfl
  | node red l v r => simp only [T.isRed] at h; subst h; rfl

/-! ### Adding -/

theorem inorder_straighten (t : T α) (p g : Frame α) (ht : t.isLeaf = false) (fs : List (Frame α)) :
    before ((straighten t p g).2 :: g :: fs) ++ (straighten t p g).1.inorder ++
      after ((straighten t p g).2 :: g :: fs) =
    before (p :: g :: fs) ++ t.inorder ++ after (p :: g :: fs) ∧ (straighten t p g).2.left = g.left := by
  unfold straighten
  by_cases h : p.left = g.left
  · rw [if_pos h]; exact ⟨rfl, h⟩
  · rw [if_neg h]
    cases t with
    | leaf => simp [T.isLeaf] at ht
    | node tred tl tv tr =>
      cases hp : p.left <;> cases hg : g.left <;> simp [hp, hg] at h ⊢ <;>
        simp [before, after, hp, hg, T.inorder, List.append_assoc]

theorem inorder_fix (t : T α) (fs : List (Frame α)) (t' : T α) (ht : t.isLeaf = false)
    (h : fix t fs = .ok t') : t'.inorder = before fs ++ t.inorder ++ after fs := by
  fun_induction fix t fs with
  | case1 t => cases h; simp [before, after]
  | case2 t p h1 => cases h
  | case3 t p h1 g rest' h2 ih =>
    have hs : (recolor t p g).isLeaf = false := by
      unfold recolor plug1 mk
      cases g.left <;> rfl
    rw [ih hs h]
    unfold recolor plug1 mk
    cases hp : p.left <;> cases hg : g.left <;>
      simp [before, after, hp, hg, T.inorder, inorder_paint, List.append_assoc]
  | case4 t p h1 g rest' h2 s =>
    cases h
    obtain ⟨e, hl⟩ := inorder_straighten t p g ht rest'
    rw [inorder_plug, ← e]
    simp only [s]
    generalize straighten t p g = q at hl
    unfold rotate mk
    cases hg : g.left <;> rw [hg] at hl <;>
      simp [before, after, hl, hg, T.inorder, List.append_assoc]
  | case5 t p rest h1 => cases h; rw [inorder_plug]

theorem good_fix (t : T α) (fs : List (Frame α)) (n : Nat) (ht : RB t n) (hr : t.isRed = true)
    (hc : CtxOK fs n) : ∃ t', fix t fs = .ok t' ∧ ∃ k, RB (t'.paint false) k := by
  fun_induction fix t fs generalizing n with
  | case1 t => exact ⟨t, rfl, _, RB_paint_red ht hr⟩
  | case2 t p h1 =>
    obtain ⟨hs, hc⟩ := hc
    rw [h1, if_pos rfl] at hc
    obtain ⟨_, ⟨g, gs, h, _⟩, _⟩ := hc
    cases h
  | case3 t p h1 g rest' h2 ih =>
    obtain ⟨hs, hc⟩ := hc
    rw [h1, if_pos rfl] at hc
    obtain ⟨hsib, ⟨g', gs', he, hg⟩, hgs, hc⟩ := hc
    cases he
    rw [hg, if_neg (by simp)] at hc
    have hu := RB_paint_red hgs h2
    apply ih (n + 1) _ _ hc
    · unfold recolor plug1 mk
      cases hp : p.left <;> cases hgl : g.left <;>
        simp [RB, ht, hs, hu, isRed_paint, isRed_node]
    · unfold recolor plug1 mk
      cases hgl : g.left <;> simp [T.isRed]
  | case4 t p h1 g rest' h2 s =>
    obtain ⟨hs, hc⟩ := hc
    rw [h1, if_pos rfl] at hc
    obtain ⟨hsib, ⟨g', gs', he, hg⟩, hgs, hc⟩ := hc
    cases he
    rw [hg, if_neg (by simp)] at hc
    have h2' : g.sib.isRed = false := by simpa using h2
    have hst : RB s.1 n ∧ RB s.2.sib n ∧ s.1.isRed = true ∧ s.2.sib.isRed = false := by
      simp only [s]
      unfold straighten
      split
      · exact ⟨ht, hs, hr, hsib⟩
      · cases t with
        | leaf => simp [T.isRed] at hr
        | node tred tl tv tr =>
          simp only [T.isRed] at hr
          subst hr
          simp only [RB] at ht
          cases hgl : g.left <;> simp [RB, isRed_node, ht, hs, hsib, h1]
    have hrot : RB (rotate s.1 s.2 g) (n + 1) ∧ (rotate s.1 s.2 g).isRed = false := by
      unfold rotate mk
      cases hgl : g.left <;> simp [RB, isRed_node, hst, hgs, h2']
    obtain ⟨k, hk, hkb⟩ := good_plug ⟨n + 1, hrot.1, hc, by rw [hrot.2]; intro h; cases h⟩
    refine ⟨_, rfl, k, ?_⟩
    rw [paint_black hkb]
    exact hk
  | case5 t p rest h1 =>
    refine ⟨_, rfl, ?_⟩
    have h1' : p.red = false := by simpa using h1
    obtain ⟨k, hk, hkb⟩ := good_plug (t := t) (fs := p :: rest) ⟨n, ht, hc, fun _ => ⟨p, rest, rfl, h1'⟩⟩
    rw [paint_black hkb]
    exact ⟨k, hk⟩

/-! ### Removing -/

/-- The elements of a node made by `mk`. -/
theorem inorder_mk (left red : Bool) (t s : T α) (v : α) :
    (mk left red t v s).inorder = if left then t.inorder ++ v :: s.inorder else s.inorder ++ v :: t.inorder := by
  unfold mk; cases left <;> rfl

theorem paint_mk (left red c : Bool) (t s : T α) (v : α) : (mk left red t v s).paint c = mk left c t v s := by
  unfold mk; cases left <;> rfl

theorem isRed_mk (left red : Bool) (t s : T α) (v : α) : (mk left red t v s).isRed = red := by
  unfold mk; cases left <;> rfl

theorem RB_mk_black {left : Bool} {t s : T α} {v : α} {n : Nat} (h1 : RB t n) (h2 : RB s n) :
    RB (mk left false t v s) (n + 1) := by
  unfold mk; cases left <;> simp [RB, h1, h2]

theorem RB_mk_red {left : Bool} {t s : T α} {v : α} {n : Nat} (h1 : RB t n) (h2 : RB s n)
    (b1 : t.isRed = false) (b2 : s.isRed = false) : RB (mk left true t v s) n := by
  unfold mk; cases left <;> simp [RB, h1, h2, b1, b2]

theorem RB_near {red : Bool} {l r : T α} {v : α} {n : Nat} (h : RB (.node red l v r) n) :
    ∃ k, RB l k ∧ RB r k ∧ (red = true → k = n ∧ l.isRed = false ∧ r.isRed = false) ∧ (red = false → n = k + 1) := by
  cases red with
  | true => simp only [RB] at h; exact ⟨n, h.1, h.2.1, fun _ => ⟨rfl, h.2.2⟩, fun h => by cases h⟩
  | false =>
    simp only [RB] at h
    obtain ⟨k, rfl, h1, h2⟩ := h
    exact ⟨k, h1, h2, fun h => (by cases h), fun _ => rfl⟩

/-- A subtree that lacks one black node. -/
def Short (t : T α) (n : Nat) : Prop :=
  (t.isRed = false → RB t n) ∧ (t.isRed = true → RB (t.paint false) (n + 1))

theorem blackSibling_ok (t : T α) (f : Frame α) (near far : T α) (sv : α) (n : Nat) (ht : RB t n)
    (hb : t.isRed = false) (hn : RB near n) (hf : RB far n) :
    match blackSibling t f near sv far with
    | .goOn t' => Short t' (if f.red then n else n + 1) ∧ t'.isRed = f.red
    | .done t' => RB t' (if f.red then n + 1 else n + 2) ∧ t'.isRed = f.red := by
  unfold blackSibling
  by_cases h : near.isRed = false ∧ far.isRed = false
  · rw [if_pos (by simp [h.1, h.2])]
    have hs : RB (mk f.left true near sv far) n := RB_mk_red hn hf h.1 h.2
    cases hfr : f.red with
    | true =>
      refine ⟨⟨fun h => ?_, fun _ => ?_⟩, isRed_mk _ _ _ _ _⟩
      · rw [isRed_mk] at h; cases h
      · rw [paint_mk]; exact RB_mk_black ht hs
    | false =>
      refine ⟨⟨fun _ => RB_mk_black ht hs, fun h => ?_⟩, isRed_mk _ _ _ _ _⟩
      rw [isRed_mk] at h; cases h
  · rw [if_neg (by simp only [Bool.not_eq_true', Bool.or_eq_false_iff]; exact h)]
    by_cases hfar : far.isRed = false
    · rw [if_pos (by simp [hfar])]
      have hnr : near.isRed = true := by
        cases hq : near.isRed with
        | true => rfl
        | false => exact absurd ⟨hq, hfar⟩ h
      cases near with
      | leaf => simp [T.isRed] at hnr
      | node nred nl nv nr =>
        simp only [T.isRed] at hnr
        subst hnr
        simp only [RB] at hn
        simp only [paint_mk]
        have ho : RB (if f.left = true then nr else nl) n := by split <;> simp only [hn]
        have hi : RB (if f.left = true then nl else nr) n := by split <;> simp only [hn]
        have h1 : RB (mk f.left false t f.v (if f.left = true then nl else nr)) (n + 1) := RB_mk_black ht hi
        have h2 : RB (mk f.left false (if f.left = true then nr else nl) sv far) (n + 1) := RB_mk_black ho hf
        refine ⟨?_, isRed_mk _ _ _ _ _⟩
        cases hfr : f.red with
        | true => exact RB_mk_red h1 h2 (isRed_mk _ _ _ _ _) (isRed_mk _ _ _ _ _)
        | false => exact RB_mk_black h1 h2
    · rw [if_neg (by simpa using hfar)]
      have h1 : RB (mk f.left false t f.v near) (n + 1) := RB_mk_black ht hn
      have h2 : RB (far.paint false) (n + 1) := RB_paint_red hf (by simpa using hfar)
      refine ⟨?_, isRed_mk _ _ _ _ _⟩
      cases hfr : f.red with
      | true => exact RB_mk_red h1 h2 (isRed_mk _ _ _ _ _) (isRed_paint _)
      | false => exact RB_mk_black h1 h2

/-- The elements of a subtree after a round. -/
def Round.tree : Round α → T α
  | .goOn t => t
  | .done t => t

theorem blackSibling_inorder (t : T α) (f : Frame α) (near far : T α) (sv : α) (c : Bool) :
    (blackSibling t f near sv far).tree.inorder = (mk f.left c t f.v (mk f.left c near sv far)).inorder := by
  unfold blackSibling
  split
  · simp only [Round.tree, inorder_mk]
  · split
    · cases near with
      | leaf => rename_i h1 h2; simp [T.isRed] at h1 h2; rw [h2] at h1; cases h1
      | node nred nl nv nr =>
        simp only [Round.tree, inorder_mk, inorder_paint, T.inorder]
        cases f.left <;> simp [List.append_assoc]
    · simp only [Round.tree, inorder_mk, inorder_paint]
      cases f.left <;> simp [List.append_assoc]

theorem inorder_mk_color (left c d : Bool) (t s : T α) (v : α) :
    (mk left c t v s).inorder = (mk left d t v s).inorder := by simp only [inorder_mk]

/-- A red-black tree of which one subtree lacks a black node is made one again. -/
theorem delLoop_ok (fs : List (Frame α)) : ∀ (t : T α) (n : Nat), Short t n → CtxOK fs (n + 1) →
    ∃ t', delLoop t fs = .ok t' ∧ t'.inorder = before fs ++ t.inorder ++ after fs ∧
      ∃ k, RB t' k ∧ t'.isRed = false := by
  induction fs with
  | nil =>
    intro t n ht _
    refine ⟨_, rfl, by simp [inorder_paint, before, after], ?_⟩
    cases hr : t.isRed with
    | true => exact ⟨_, ht.2 hr, isRed_paint t⟩
    | false => exact ⟨n, by rw [paint_black hr]; exact ht.1 hr, isRed_paint t⟩
  | cons f fs ih =>
    intro t n ht hc
    unfold delLoop
    cases hr : t.isRed with
    | true =>
      rw [if_pos rfl]
      refine ⟨_, rfl, by rw [inorder_plug, inorder_paint], ?_⟩
      exact good_plug ⟨n + 1, ht.2 hr, hc, by rw [isRed_paint]; intro h; cases h⟩
    | false =>
      rw [if_neg (by simp)]
      have ht1 := ht.1 hr
      obtain ⟨hs, hc⟩ := hc
      cases hsib : f.sib with
      | leaf => rw [hsib] at hs; simp [RB] at hs
      | node sred sl sv sr =>
        rw [hsib] at hs
        simp only
        have ho : ∀ u : T α, before fs ++ (plug1 u f).inorder ++ after fs = before (f :: fs) ++ u.inorder ++ after (f :: fs) := by
          intro u
          have := inorder_plug u (f :: fs)
          rw [← this, plug, inorder_plug]
        have hpl : plug1 t f = mk f.left f.red t f.v
            (mk f.left sred (if f.left = true then sl else sr) sv (if f.left = true then sr else sl)) := by
          unfold plug1 mk
          rw [hsib]
          cases f.left <;> rfl
        cases sred with
        | true =>
          rw [if_pos rfl]
          have hfr : f.red = false := by
            cases hq : f.red with
            | false => rfl
            | true => rw [hq, if_pos rfl, hsib] at hc; cases hc.1
          rw [hfr, if_neg (by simp)] at hc
          simp only [RB] at hs
          have hnear : RB (if f.left = true then sl else sr) (n + 1) := by split <;> simp only [hs]
          have hfar : RB (if f.left = true then sr else sl) (n + 1) := by split <;> simp only [hs]
          have hnb : (if f.left = true then sl else sr).isRed = false := by split <;> simp only [hs]
          generalize (if f.left = true then sl else sr) = near at *
          generalize (if f.left = true then sr else sl) = far at *
          cases near with
          | leaf => simp [RB] at hnear
          | node nred nl nv nr =>
            simp only [T.isRed] at hnb
            subst hnb
            simp only [RB] at hnear
            obtain ⟨k, hk, hn1, hn2⟩ := hnear
            have hk : n = k := by omega
            subst hk
            simp only
            have hi : RB (if f.left = true then nl else nr) n := by split <;> assumption
            have hj : RB (if f.left = true then nr else nl) n := by split <;> assumption
            have hb := blackSibling_ok t ⟨f.left, true, f.v, .node true sl sv sr⟩ _ _ nv n ht1 hr hi hj
            have hin := blackSibling_inorder t ⟨f.left, true, f.v, .node true sl sv sr⟩ (if f.left = true then nl else nr)
              (if f.left = true then nr else nl) nv false
            have hctx : CtxOK ({ f with red := false, v := sv, sib := far } :: fs) (n + 1) := ⟨hfar, by
              rw [if_neg (by simp)]; exact hc⟩
            have hord : before ({ f with red := false, v := sv, sib := far } :: fs) ++
                (mk f.left false t f.v (mk f.left false (if f.left = true then nl else nr) nv
                  (if f.left = true then nr else nl))).inorder ++
                after ({ f with red := false, v := sv, sib := far } :: fs) =
                before (f :: fs) ++ t.inorder ++ after (f :: fs) := by
              rw [← ho t, hpl]
              cases hl : f.left <;> simp [before, after, hl, inorder_mk, T.inorder, List.append_assoc]
            cases hbs : blackSibling t ⟨f.left, true, f.v, .node true sl sv sr⟩ (if f.left = true then nl else nr) nv
                (if f.left = true then nr else nl) with
            | goOn t' =>
              rw [hbs] at hb hin
              simp only [Round.tree] at hin
              simp only [if_pos] at hb
              have hred : t'.isRed = true := hb.2
              refine ⟨_, rfl, ?_, ?_⟩
              · rw [inorder_plug, inorder_paint, hin, hord]
              · exact good_plug ⟨n + 1, hb.1.2 hred, hctx, by rw [isRed_paint]; intro h; cases h⟩
            | done t' =>
              rw [hbs] at hb hin
              simp only [Round.tree] at hin
              simp only [if_pos] at hb
              have hg : ∃ k, RB (plug t' ({ f with red := false, v := sv, sib := far } :: fs)) k ∧ 
                (plug t' ({ f with red := false, v := sv, sib := far } :: fs)).isRed = false :=
                good_plug ⟨n + 1, hb.1, hctx, fun _ => ⟨_, _, rfl, rfl⟩⟩
              refine ⟨_, rfl, ?_, ?_⟩
              · rw [inorder_paint, inorder_plug, hin, hord]
              · obtain ⟨k, h1, h2⟩ := hg
                exact ⟨k, by rw [paint_black h2]; exact h1, isRed_paint _⟩
        | false =>
          rw [if_neg (by simp)]
          simp only [RB] at hs
          obtain ⟨k, hk, hn1, hn2⟩ := hs
          have hk : n = k := by omega
          subst hk
          have hi : RB (if f.left = true then sl else sr) n := by split <;> assumption
          have hj : RB (if f.left = true then sr else sl) n := by split <;> assumption
          have hb := blackSibling_ok t f _ _ sv n ht1 hr hi hj
          have hin := blackSibling_inorder t f (if f.left = true then sl else sr) (if f.left = true then sr else sl) sv false
          have hord : before fs ++ (mk f.left false t f.v (mk f.left false (if f.left = true then sl else sr) sv
                  (if f.left = true then sr else sl))).inorder ++ after fs =
                before (f :: fs) ++ t.inorder ++ after (f :: fs) := by
            rw [← ho t, hpl]
            cases hl : f.left <;> simp [inorder_mk]
          cases hbs : blackSibling t f (if f.left = true then sl else sr) sv (if f.left = true then sr else sl) with
          | goOn t' =>
            rw [hbs] at hb hin
            simp only [Round.tree] at hin
            simp only
            rw [← hord, ← hin]
            cases hfr : f.red with
            | true =>
              rw [hfr] at hb hc
              exact ih t' n hb.1 hc.2.2
            | false =>
              rw [hfr] at hb hc
              exact ih t' (n + 1) hb.1 hc
          | done t' =>
            rw [hbs] at hb hin
            simp only [Round.tree] at hin
            simp only at hb ⊢
            refine ⟨_, rfl, ?_, ?_⟩
            · rw [inorder_paint, inorder_plug, hin, hord]
            · have hg : Good t' fs := by
                cases hfr : f.red with
                | true =>
                  rw [hfr] at hb hc
                  exact ⟨n + 1, hb.1, hc.2.2, fun _ => hc.2.1⟩
                | false =>
                  rw [hfr] at hb hc
                  exact ⟨n + 2, hb.1, hc, by rw [hb.2]; intro h; cases h⟩
              obtain ⟨k, h1, h2⟩ := good_plug hg
              exact ⟨k, by rw [paint_black h2]; exact h1, isRed_paint _⟩

end Avian.PersistentSet
