import Verif.Heap.BootImageInv
import Verif.Lib.Outcome

/-
C99: the heap of a boot image is the heap it was made from.
-/
namespace Avian.BootImage
open Avian.HeapWalk

variable {g : Graph} {o : Objects} {mem : Nat → Word}

/-! ### While the image is made -/

theorem told_append (h : List Event) (e : Event) : told o mem (h ++ [e]) = (told o mem h).step o e := by
  unfold told; rw [List.foldl_append]; rfl

theorem visit_failed (v : Visitor) (n : Nat) : (v.visit o n).failed = v.failed := by
  unfold Visitor.visit
  cases v.current with
  | none => rfl
  | some c => rfl

theorem alloc_failed {v : Visitor} {p : Nat} (h : (v.alloc o p).failed = false) :
    v.failed = false ∧ v.position + total (o.fixed v.referer p) (o.room v.referer p) < capacity := by
  unfold Visitor.alloc at h
  simp only at h
  by_cases hc : v.position + total (o.fixed v.referer p) (o.room v.referer p) < capacity
  · rw [if_pos hc] at h; exact ⟨h, hc⟩
  · rw [if_neg hc] at h; cases h

theorem alloc_current (v : Visitor) (p : Nat) : (v.alloc o p).current = v.current := by
  unfold Visitor.alloc
  simp only
  by_cases hc : v.position + total (o.fixed v.referer p) (o.room v.referer p) < capacity
  · rw [if_pos hc]
  · rw [if_neg hc]

/-- The image so far, unless the generator gave up. -/
def Good (g : Graph) (o : Objects) (v : Visitor) (m : Nat → Option Nat) (D : Nat → Nat → Prop) : Prop := v.failed = false → ∃ R, Inv g o v m R D

/-- The reference that is about to be written. -/
def pending (v : Visitor) (x c : Nat) : Prop := ∃ k, v.current = some (x, k, c)

/-- The reference that is about to be written leads to this object, and is new. -/
def Ready (g : Graph) (m : Nat → Option Nat) (D : Nat → Nat → Prop) (v : Visitor) (p : Nat) : Prop :=
  ∀ x k c, v.current = some (x, k, c) → x ≠ 0 ∧ m x = some k ∧ c ∈ g.refs x ∧ ¬ D x c ∧ g.target x c = p

theorem Inv.congr {v : Visitor} {m : Nat → Option Nat} {R : Nat → Referer} {D D' : Nat → Nat → Prop} (h : Inv g o v m R D) (e : ∀ x c, D x c ↔ D' x c) :
    Inv g o v m R D' := by
  have : D = D' := funext fun x => funext fun c => propext (e x c)
  rw [← this]; exact h

theorem Good.congr {v : Visitor} {m : Nat → Option Nat} {D D' : Nat → Nat → Prop} (h : Good g o v m D) (e : ∀ x c, D x c ↔ D' x c) : Good g o v m D' :=
  fun hf => let ⟨R, hi⟩ := h hf; ⟨R, hi.congr e⟩

theorem Inv.current {v : Visitor} {m : Nat → Option Nat} {R : Nat → Referer} {D : Nat → Nat → Prop} (h : Inv g o v m R D)
    (c : Option (Nat × Nat × Nat)) : Inv g o { v with current := c } m R D :=
  ⟨h.null, h.pos, h.full, h.disj, h.dom, h.ref, h.word, h.head, h.bits⟩

theorem Good.link (hl : Laid g o) {v : Visitor} {m : Nat → Option Nat} {D : Nat → Nat → Prop} {p l : Nat} (h : Good g o v m D) (hr : Ready g m D v p)
    (hp : m p = some l) : Good g o (v.visit o l) m (fun x c => D x c ∨ pending v x c) := by
  intro hf
  rw [visit_failed] at hf
  obtain ⟨R, hi⟩ := h hf
  cases hc : v.current with
  | none =>
    refine ⟨R, ?_⟩
    have : v.visit o l = v := by unfold Visitor.visit; rw [hc]
    rw [this]
    refine hi.congr fun x c => ⟨Or.inl, fun h => h.resolve_right ?_⟩
    rintro ⟨k, hk⟩
    rw [hc] at hk; cases hk
  | some t =>
    obtain ⟨x, k, c⟩ := t
    obtain ⟨h1, h2, h3, h4, h5⟩ := hr x k c hc
    refine ⟨R, (hi.link hl hc h1 h2 h3 h4 (by rw [h5]; exact hp)).congr fun y d => ?_⟩
    constructor
    · rintro (h | ⟨rfl, rfl⟩)
      · exact Or.inl h
      · exact Or.inr ⟨k, hc⟩
    · rintro (h | ⟨k', hk⟩)
      · exact Or.inl h
      · rw [hc] at hk
        injection hk with hk
        injection hk with e1 e2
        injection e2 with e2 e3
        exact Or.inr ⟨e1.symm, e3.symm⟩

/-- What a task does to the image. -/
theorem walk_inv (hl : Laid g o) (hnd : ∀ p, (g.refs p).Nodup) {t : Task} {h es : List Event} {m m' : Nat → Option Nat}
    (hw : Walk g (answer o mem) t h m es m') : ∀ {D : Nat → Nat → Prop}, m 0 ≠ none → (∀ x c, D x c → m x ≠ none) → Good g o (told o mem h) m D →
      (match t with
        | .visit p => Ready g m D (told o mem h) p → Good g o (told o mem (h ++ es)) m' (fun x c => D x c ∨ pending (told o mem h) x c ∨ (x, c) ∈ pushes es)
        | .kids p n os => p ≠ 0 → m p = some n → os.Nodup → (∀ c ∈ os, c ∈ g.refs p ∧ ¬ D p c) →
            Good g o (told o mem (h ++ es)) m' (fun x c => D x c ∨ (x, c) ∈ pushes es)) := by
  induction hw with
  | old h1 =>
    rename_i h m p n
    intro D h0 hD hg hr
    rw [told_append]
    refine (hg.link hl hr h1).congr fun x c => ?_
    simp [pushes]
  | last =>
    intro D h0 hD hg hp hm hn hd
    rw [List.append_nil]
    exact hg.congr fun x c => by simp [pushes]
  | new h1 h2 ih =>
    rename_i h es m m' p
    intro D h0 hD hg hr
    have hp : p ≠ 0 := fun e => h0 (by rw [← e]; exact h1)
    have hput : put m p (answer o mem h p) p = some (answer o mem h p) := if_pos rfl
    have hputx : ∀ x, x ≠ p → put m p (answer o mem h p) x = m x := fun x hx => if_neg hx
    have hnep : ∀ x, m x ≠ none → x ≠ p := fun x hx e => hx (by rw [e]; exact h1)
    -- the object is copied, and the reference to it is written
    have halloc : Good g o ((told o mem h).alloc o p) (put m p (answer o mem h p)) D := by
      intro hf
      obtain ⟨hf1, hf2⟩ := alloc_failed hf
      obtain ⟨R, hi⟩ := hg hf1
      exact ⟨_, hi.alloc hl hp h1 hf2⟩
    have hready : Ready g (put m p (answer o mem h p)) D ((told o mem h).alloc o p) p := by
      intro x k c hc
      rw [alloc_current] at hc
      obtain ⟨a1, a2, a3, a4, a5⟩ := hr x k c hc
      exact ⟨a1, by rw [hputx x (hnep x (by rw [a2]; nofun))]; exact a2, a3, a4, a5⟩
    have hstep : told o mem (h ++ [.new p (answer o mem h p)]) = ((told o mem h).alloc o p).visit o (answer o mem h p) := by
      rw [told_append]
      unfold Visitor.step
      simp only [if_neg hp]
      rfl
    have hg1 := halloc.link hl hready hput
    rw [← hstep] at hg1
    have hpend : ∀ x c, pending ((told o mem h).alloc o p) x c ↔ pending (told o mem h) x c := fun x c => by unfold pending; rw [alloc_current]
    have hDp : ∀ x c, D x c ∨ pending ((told o mem h).alloc o p) x c → x ≠ p := by
      rintro x c (h3 | h3)
      · exact hnep x (hD x c h3)
      · obtain ⟨k, hk⟩ := (hpend x c).1 h3
        exact hnep x (by rw [(hr x k c hk).2.1]; nofun)
    have := ih (D := fun x c => D x c ∨ pending ((told o mem h).alloc o p) x c) (by rw [hputx 0 (fun e => hp e.symm)]; exact h0)
      (fun x c hx => by
        rw [hputx x (hDp x c hx)]
        rcases hx with hx | hx
        · exact hD x c hx
        · obtain ⟨k, hk⟩ := (hpend x c).1 hx
          rw [(hr x k c hk).2.1]; nofun) hg1 hp hput (hnd p) (fun c hc => ⟨hc, fun hx => hDp p c hx rfl⟩)
    rw [List.append_assoc] at this
    refine Good.congr this fun x c => ?_
    show (D x c ∨ pending ((told o mem h).alloc o p) x c) ∨ (x, c) ∈ pushes es ↔ D x c ∨ pending (told o mem h) x c ∨ (x, c) ∈ pushes es
    rw [hpend, or_assoc]
  | kid h1 h2 ih1 ih2 =>
    rename_i h es es' m m1 m' p n c os
    intro D h0 hD hg hp hm hn hd
    have hn' := List.nodup_cons.1 hn
    have f := walk_facts hnd h1 trivial
    have hcur : (told o mem (h ++ [.push p n c])).current = some (p, n, c) := by rw [told_append]; rfl
    have hg1 : Good g o (told o mem (h ++ [.push p n c])) m D := by
      rw [told_append]
      intro hf
      obtain ⟨R, hi⟩ := hg hf
      exact ⟨R, hi.current _⟩
    have hr : Ready g m D (told o mem (h ++ [.push p n c])) (g.target p c) := by
      intro x k d hc
      rw [hcur] at hc
      injection hc with hc
      injection hc with e1 e2
      injection e2 with e2 e3
      subst e1 e2 e3
      exact ⟨hp, hm, (hd c List.mem_cons_self).1, (hd c List.mem_cons_self).2, rfl⟩
    have hpend : ∀ x d, pending (told o mem (h ++ [.push p n c])) x d ↔ x = p ∧ d = c := by
      intro x d
      unfold pending
      rw [hcur]
      constructor
      · rintro ⟨k, hk⟩
        injection hk with hk
        injection hk with e1 e2
        injection e2 with e2 e3
        exact ⟨e1.symm, e3.symm⟩
      · rintro ⟨rfl, rfl⟩; exact ⟨n, rfl⟩
    have g2 := ih1 h0 hD hg1 hr
    have hpn : p ∉ news es := fun hx => by have := f.fresh p hx; rw [hm] at this; cases this
    have hpush : ∀ x d, (x, d) ∈ pushes es → x ∈ news es ∧ d ∈ g.refs x := fun x d hx => ((f.refs x d).1 hx).resolve_left (by simp [Task.own])
    have g3 : Good g o (told o mem (h ++ [.push p n c] ++ es ++ [.pop])) m1
        (fun x d => D x d ∨ pending (told o mem (h ++ [.push p n c])) x d ∨ (x, d) ∈ pushes es) := by
      rw [told_append]
      intro hf
      obtain ⟨R, hi⟩ := g2 hf
      exact ⟨R, hi.current _⟩
    have := ih2 ((f.seen 0).2 (Or.inl h0)) (fun x d hx => by
        rw [f.seen]
        rcases hx with hx | hx | hx
        · exact Or.inl (hD x d hx)
        · rw [((hpend x d).1 hx).1, hm]; exact Or.inl nofun
        · exact Or.inr (hpush x d hx).1) g3 hp (f.mono p n hm) hn'.2 (fun d hd' => ⟨(hd d (List.mem_cons_of_mem _ hd')).1, by
          rintro (hx | hx | hx)
          · exact (hd d (List.mem_cons_of_mem _ hd')).2 hx
          · rw [((hpend p d).1 hx).2] at hd'; exact hn'.1 hd'
          · exact hpn (hpush p d hx).1⟩)
    have e : h ++ [.push p n c] ++ es ++ [.pop] ++ es' = h ++ (.push p n c :: (es ++ .pop :: es')) := by simp
    rw [e] at this
    refine Good.congr this fun x d => ?_
    show (D x d ∨ pending _ x d ∨ (x, d) ∈ pushes es) ∨ (x, d) ∈ pushes es' ↔ D x d ∨ (x, d) ∈ (p, c) :: pushes (es ++ .pop :: es')
    rw [hpend, pushes_append]
    show _ ↔ D x d ∨ (x, d) ∈ (p, c) :: (pushes es ++ pushes es')
    rw [List.mem_cons, List.mem_append, Prod.mk.injEq]
    constructor
    · rintro ((h | h | h) | h)
      · exact Or.inl h
      · exact Or.inr (Or.inl h)
      · exact Or.inr (Or.inr (Or.inl h))
      · exact Or.inr (Or.inr (Or.inr h))
    · rintro (h | h | h | h)
      · exact Or.inl (Or.inl h)
      · exact Or.inl (Or.inr (Or.inl h))
      · exact Or.inl (Or.inr (Or.inr h))
      · exact Or.inr h

theorem walks_inv (hl : Laid g o) (hnd : ∀ p, (g.refs p).Nodup) {rs : List Nat} {h h' : List Event} {m m' : Nat → Option Nat}
    (hw : Walks g (answer o mem) rs h m h' m') : ∀ {done : List Nat}, m 0 ≠ none → Whole g done m h → Good g o (told o mem h) m (fun x c => (x, c) ∈ pushes h) →
      Good g o (told o mem h') m' (fun x c => (x, c) ∈ pushes h') := by
  induction hw with
  | nil => exact fun _ _ hg => hg
  | cons w1 _ ih =>
    rename_i h es h' m m1 m' r rs _
    intro done h0 hwh hg
    have f := walk_facts hnd w1 trivial
    have hcur : (told o mem (h ++ [.root])).current = none := by rw [told_append]; rfl
    have hg1 : Good g o (told o mem (h ++ [.root])) m (fun x c => (x, c) ∈ pushes h) := by
      rw [told_append]
      intro hf
      obtain ⟨R, hi⟩ := hg hf
      exact ⟨R, hi.current _⟩
    have := walk_inv hl hnd w1 h0 (fun x c hx => (hwh.seen x).2 ((hwh.refs x c).1 hx).1) hg1 (fun x k c hc => by rw [hcur] at hc; cases hc)
    refine ih ((f.seen 0).2 (Or.inl h0)) (hwh.walk hnd w1) (this.congr fun x c => ?_)
    rw [pushes_append, pushes_append]
    show _ ↔ (x, c) ∈ pushes h ++ [] ++ pushes es
    rw [List.append_nil, List.mem_append]
    constructor
    · rintro (h | ⟨k, hk⟩ | h)
      · exact Or.inl h
      · rw [hcur] at hk; cases hk
      · exact Or.inr h
    · rintro (h | h)
      · exact Or.inl h
      · exact Or.inr (Or.inr h)

/-! ### When it fits -/

theorem sum_le {T : Nat → Nat} : ∀ {l U : List Nat}, l.Nodup → (∀ x ∈ l, x ∈ U) → (l.map T).sum ≤ (U.map T).sum
  | [], _, _, _ => Nat.zero_le _
  | x :: l, U, hn, hU => by
    have hn' := List.nodup_cons.1 hn
    have hx := hU x List.mem_cons_self
    have hp := (List.perm_cons_erase hx).map T
    have ih := sum_le (T := T) (l := l) (U := U.erase x) hn'.2 fun y hy => (List.mem_erase_of_ne (fun e => hn'.1 (by rw [← e]; exact hy))).2 (hU y (List.mem_cons_of_mem _ hy))
    have := hp.sum_nat
    rw [List.map_cons, List.sum_cons] at this ⊢
    omega

theorem told_fits {T : Nat → Nat} (hT : ∀ r p, total (o.fixed r p) (o.room r p) ≤ T p) : ∀ (n : Nat) (es : List Event), es.length = n →
    (((news es).filter (· ≠ 0)).map T).sum < capacity →
      (told o mem es).failed = false ∧ (told o mem es).position ≤ (((news es).filter (· ≠ 0)).map T).sum
  | 0, es, hn, _ => by
    cases es with
    | nil => exact ⟨rfl, Nat.le_refl _⟩
    | cons => cases hn
  | n + 1, es, hn, hc => by
    obtain ⟨h, e, rfl⟩ : ∃ h e, es = h ++ [e] := by
      have hne : es ≠ [] := by intro e; rw [e] at hn; cases hn
      exact ⟨es.dropLast, es.getLast hne, (List.dropLast_concat_getLast hne).symm⟩
    have hlen : h.length = n := by simpa using hn
    have vp : ∀ (v : Visitor) (k : Nat), (v.visit o k).position = v.position := fun v k => by
      unfold Visitor.visit
      cases v.current <;> rfl
    rw [news_append, List.filter_append, List.map_append, List.sum_append_nat] at hc ⊢
    have ih := told_fits hT n h hlen (by omega)
    rw [told_append]
    have other : (told o mem h).step o e = told o mem h ∨ (∃ k, (told o mem h).step o e = (told o mem h).visit o k) ∨
        (∃ c, (told o mem h).step o e = { told o mem h with current := c }) → _ := fun hx => (show
          ((told o mem h).step o e).failed = false ∧ ((told o mem h).step o e).position ≤
            (((news h).filter (· ≠ 0)).map T).sum + (((news [e]).filter (· ≠ 0)).map T).sum from by
      rcases hx with hx | ⟨k, hx⟩ | ⟨c, hx⟩
      · rw [hx]; exact ⟨ih.1, by omega⟩
      · rw [hx, visit_failed, vp]; exact ⟨ih.1, by omega⟩
      · rw [hx]; exact ⟨ih.1, Nat.le_trans ih.2 (Nat.le_add_right _ _)⟩)
    cases e with
    | root => exact other (Or.inr (Or.inr ⟨none, rfl⟩))
    | pop => exact other (Or.inr (Or.inr ⟨none, rfl⟩))
    | push p k c => exact other (Or.inr (Or.inr ⟨_, rfl⟩))
    | old p k => exact other (Or.inr (Or.inl ⟨k, rfl⟩))
    | new p k =>
      by_cases hp : p = 0
      · exact other (Or.inl (by unfold Visitor.step; simp only [if_pos hp]))
      · have hs : (((news [Event.new p k]).filter (· ≠ 0)).map T).sum = T p := by simp [news, hp]
        rw [hs] at hc ⊢
        unfold Visitor.step
        simp only [if_neg hp]
        rw [visit_failed, vp]
        have ht := hT (told o mem h).referer p
        unfold Visitor.alloc
        simp only
        rw [if_pos (by omega)]
        exact ⟨ih.1, by simp only; omega⟩

/-! ### Taking it into use -/

theorem and_one_shift (w : Word) {b : Nat} (hb : b < 64) : w &&& (1#64 <<< b) ≠ 0 ↔ w.getLsbD b = true := by
  constructor
  · intro h
    cases hw : w.getLsbD b with
    | true => rfl
    | false =>
      exact absurd (BitVec.eq_of_getLsbD_eq fun i hi => by
        rw [BitVec.getLsbD_and, BitVec.getLsbD_shiftLeft, BitVec.getLsbD_one]
        by_cases hib : i = b
        · subst hib; simp [hw]
        · by_cases h1 : i < b
          · simp [h1]
          · have : i - b ≠ 0 := by omega
            simp [this]) h
  · intro h e
    have := congrArg (fun x => x.getLsbD b) e
    rw [BitVec.getLsbD_and, h, BitVec.getLsbD_shiftLeft, BitVec.getLsbD_one] at this
    simp [hb] at this

theorem fixupBits_ok (base : Nat) (w : Word) (word : Nat) : ∀ (n b : Nat) (h : Nat → Word) (i : Nat), b + n ≤ 64 →
    fixupBits base w word n b h i = if word * 64 + b ≤ i ∧ i < word * 64 + b + n ∧ w.getLsbD (i - word * 64) = true then fixupWord base (h i) else h i
  | 0, b, h, i, _ => by rw [if_neg (by omega)]; rfl
  | n + 1, b, h, i, hb => by
    unfold fixupBits
    simp only
    rw [fixupBits_ok base w word n (b + 1) _ i (by omega)]
    by_cases hi : i = word * 64 + b
    · subst hi
      rw [if_neg (by omega)]
      by_cases hw : w.getLsbD b = true
      · have hc : word * 64 + b ≤ word * 64 + b ∧ word * 64 + b < word * 64 + b + (n + 1) ∧ w.getLsbD (word * 64 + b - word * 64) = true :=
          ⟨by omega, by omega, by rw [show word * 64 + b - word * 64 = b by omega]; exact hw⟩
        rw [if_pos hc, if_pos ((and_one_shift w (by omega)).2 hw)]
        exact if_pos rfl
      · rw [if_neg (fun e => hw ((and_one_shift w (by omega)).1 e)), if_neg (fun e => hw (by
          have := e.2.2
          rw [show word * 64 + b - word * 64 = b by omega] at this
          exact this))]
    · have he : (if w &&& (1#64 <<< b) ≠ 0 then fun j => if j = word * 64 + b then fixupWord base (h (word * 64 + b)) else h j else h) i = h i := by
        by_cases hc : w &&& (1#64 <<< b) ≠ 0
        · rw [if_pos hc]; exact if_neg hi
        · rw [if_neg hc]
      rw [he]
      by_cases hc : word * 64 + (b + 1) ≤ i ∧ i < word * 64 + (b + 1) + n ∧ w.getLsbD (i - word * 64) = true
      · rw [if_pos hc, if_pos ⟨by omega, by omega, hc.2.2⟩]
      · rw [if_neg hc, if_neg (fun e => hc ⟨by omega, by omega, e.2.2⟩)]

theorem fixupHeap_ok (base : Nat) (map : Nat → Word) : ∀ (n word : Nat) (h : Nat → Word) (i : Nat),
    fixupHeap base map n word h i = if word * 64 ≤ i ∧ i < (word + n) * 64 ∧ bit map i = true then fixupWord base (h i) else h i
  | 0, word, h, i => by rw [if_neg (by omega)]; rfl
  | n + 1, word, h, i => by
    unfold fixupHeap
    rw [fixupHeap_ok base map n (word + 1)]
    have hb : (if map word ≠ 0 then fixupBits base (map word) word 64 0 h else h) i =
        if word * 64 ≤ i ∧ i < word * 64 + 64 ∧ (map word).getLsbD (i - word * 64) = true then fixupWord base (h i) else h i := by
      by_cases hm : map word ≠ 0
      · rw [if_pos hm, fixupBits_ok base _ _ 64 0 h i (by omega)]; rfl
      · rw [if_neg hm, if_neg]
        rintro ⟨_, _, h3⟩
        have : map word = 0 := Decidable.not_not.1 hm
        rw [this] at h3
        simp at h3
    rw [hb]
    by_cases hi : word * 64 ≤ i ∧ i < word * 64 + 64
    · have e1 : i / 64 = word := by omega
      have e2 : i % 64 = i - word * 64 := by omega
      have e3 : bit map i = (map word).getLsbD (i - word * 64) := by unfold bit; rw [e1, e2]
      rw [if_neg (by omega)]
      by_cases hc : bit map i = true
      · rw [if_pos ⟨hi.1, hi.2, by rw [← e3]; exact hc⟩, if_pos ⟨hi.1, by omega, hc⟩]
      · rw [if_neg (fun e => hc (by rw [e3]; exact e.2.2)), if_neg (fun e => hc e.2.2)]
    · rw [if_neg (fun e => hi ⟨e.1, e.2.1⟩ : ¬ (word * 64 ≤ i ∧ i < word * 64 + 64 ∧ _))]
      by_cases hc : (word + 1) * 64 ≤ i ∧ i < (word + 1 + n) * 64 ∧ bit map i = true
      · rw [if_pos hc, if_pos ⟨by omega, by omega, hc.2.2⟩]
      · rw [if_neg hc, if_neg (fun e => hc ⟨by omega, by omega, e.2.2⟩)]

theorem entry_toNat {l : Nat} (h : l < 2 ^ 29) (w : Word) : (entry l (w &&& 7)).toNat = 2 ^ 29 * (w.toNat % 8) + l := by
  have h7 : (w &&& 7).toNat = w.toNat % 8 := by
    rw [BitVec.toNat_and, show (7 : Word).toNat = 2 ^ 3 - 1 by decide, Nat.and_two_pow_sub_one_eq_mod]
  have hm : w.toNat % 8 < 8 := Nat.mod_lt _ (by decide)
  unfold entry
  rw [BitVec.toNat_setWidth, BitVec.toNat_or, BitVec.toNat_shiftLeft, BitVec.toNat_setWidth, BitVec.toNat_ofNat, h7, Nat.shiftLeft_eq,
    Nat.mod_eq_of_lt (show l < 2 ^ 32 by omega), Nat.mod_eq_of_lt (show w.toNat % 8 < 2 ^ 32 by omega), Nat.mod_eq_of_lt (show w.toNat % 8 * 2 ^ 29 < 2 ^ 32 by omega),
    Nat.or_comm, Nat.mul_comm (w.toNat % 8), ← Nat.two_pow_add_eq_or_of_lt h]
  exact Nat.mod_eq_of_lt (by omega)

theorem fixupWord_entry {base l : Nat} (hb : base % 8 = 0) (hl : l < 2 ^ 29) (hf : base + 8 * l < 2 ^ 64) (w : Word) :
    (fixupWord base (entry l (w &&& 7))).toNat = (if l = 0 then 0 else base + 8 * (l - 1)) + w.toNat % 8 := by
  have he := entry_toNat hl w
  have hm : w.toNat % 8 < 8 := Nat.mod_lt _ (by decide)
  have h1 : (entry l (w &&& 7) &&& bootMask).toNat = l := by
    rw [BitVec.toNat_and, show bootMask.toNat = 2 ^ 29 - 1 by decide, Nat.and_two_pow_sub_one_eq_mod, he]
    omega
  have h2 : (entry l (w &&& 7) >>> 29).toNat = w.toNat % 8 := by
    rw [BitVec.toNat_ushiftRight, he, Nat.shiftRight_eq_div_pow]
    omega
  unfold fixupWord
  simp only
  by_cases h0 : l = 0
  · rw [if_neg (by
      intro h
      exact h (BitVec.eq_of_toNat_eq (by rw [h1, h0]; rfl))), if_pos h0, h2]
    omega
  · rw [if_pos (by
      intro h
      rw [h] at h1
      exact h0 h1.symm), if_neg h0, h1, BitVec.toNat_or, h2, BitVec.toNat_ofNat, Nat.mod_eq_of_lt (by omega),
      show base + 8 * (l - 1) = 2 ^ 3 * (base / 8 + (l - 1)) by omega, ← Nat.two_pow_add_eq_or_of_lt (by omega)]

/-- Where an object is after the image is taken into use. -/
def address (base : Nat) (number : Nat) : Nat := if number = 0 then 0 else base + 8 * (number - 1)

/-- **C99.** The heap of a boot image: for a finite heap that fits in the image, the generator ends, and after the image is taken into use at any aligned
address, each object that can be reached from the roots has a place of its own there (and each root's number is that of its place): each of its references leads
to the place of the object that it led to, or to null, and keeps its marks, and every other word is as it was copied; a fixed object has its mark, in front of it
the header of a fixie, and behind it a cleared mask. -/
theorem image_ok (hs : ∀ p, (g.refs p).Pairwise (· < ·)) (h0 : g.refs 0 = []) (hl : Laid g o) (mem : Nat → Word) {U roots : List Nat} (hr : ∀ r ∈ roots, r ∈ U)
    (hU : ∀ p ∈ U, ∀ c ∈ g.refs p, g.target p c ∈ U) :
    ∃ N v xs, (∀ n, N ≤ n → makeHeapImage g o mem n roots = some (v, xs)) ∧
      -- it fits if all the objects do
      (∀ T : Nat → Nat, (∀ r p, total (o.fixed r p) (o.room r p) ≤ T p) → (U.map T).sum < capacity → v.failed = false) ∧
      (v.failed = false → ∃ (number : Nat → Nat) (R : Nat → Referer),
      number 0 = 0 ∧ xs = roots.map number ∧ v.position < capacity ∧
      ∀ base, base % 8 = 0 → base + 8 * capacity < 2 ^ 64 → ∀ p, p ≠ 0 → (∃ r ∈ roots, Reach g r p) →
        -- the place
        front (o.fixed (R p) p) < number p ∧ o.hi R p (number p) ≤ v.position ∧
        (∀ q, q ≠ 0 → q ≠ p → (∃ r ∈ roots, Reach g r q) → o.hi R p (number p) ≤ o.lo R q (number q) ∨ o.hi R q (number q) ≤ o.lo R p (number p)) ∧
        -- the words
        (∀ j w, (o.image (R p) p)[j]? = some w →
          (∀ c ∈ g.refs p, o.off p c = j → (use base v (number p - 1 + j)).toNat = address base (number (g.target p c)) + w.toNat % 8) ∧
          ((∀ c ∈ g.refs p, o.off p c ≠ j) → use base v (number p - 1 + j) = w)) ∧
        -- the surroundings
        (o.fixed (R p) p = true → use base v (number p - 4) = fixieHeader (o.room (R p) p) ∧ use base v (number p - 3) = 0 ∧ use base v (number p - 2) = 0 ∧
          ∀ j, j < maskWords (o.room (R p) p) → use base v (number p - 1 + o.room (R p) p + j) = 0)) := by
  have hnd : ∀ p, (g.refs p).Nodup := fun p => (hs p).imp fun h => Nat.ne_of_lt h
  obtain ⟨N, s, m, w, hm, hrun⟩ := walks_walk hs (answer o mem) hr hU
  have hans : answer o mem [] 0 = 0 := rfl
  have hstart : (put (fun _ => none) 0 (answer o mem [] 0)) 0 = some 0 := by rw [hans]; exact if_pos rfl
  have hput : ∀ x, x ≠ 0 → (put (fun _ => none) 0 (answer o mem [] 0)) x = none := fun x hx => if_neg hx
  have hinit : Whole g [] (put (fun _ => none) 0 (answer o mem [] 0)) [.new 0 (answer o mem [] 0)] := initial_whole h0
  have hw := Whole.walks hnd w hinit
  rw [List.nil_append] at hw
  have hg := walks_inv hl hnd w (by rw [hstart]; nofun) hinit (fun _ => ⟨fun _ => none, by
    have hv : told o mem [.new 0 (answer o mem [] 0)] = .start mem := rfl
    rw [hv]
    have no : ∀ x k, x ≠ 0 → (put (fun _ => none) 0 (answer o mem [] 0)) x = some k → False := fun x k hx hk => by rw [hput x hx] at hk; cases hk
    refine ⟨hstart, fun x k hx hk => (no x k hx hk).elim, (by decide : (0 : Nat) < capacity), fun x y k l hx _ _ hk => (no x k hx hk).elim, nofun, nofun,
      fun x k j w hx hk => (no x k hx hk).elim, fun x k hx hk => (no x k hx hk).elim, fun i hi => ?_⟩
    exact absurd hi (by simp [bit, Visitor.start])⟩)
  obtain ⟨s0, xs, a1, a2, a3⟩ := hrun N (Nat.le_refl _)
  refine ⟨N, told o mem s.events, xs, fun n hn => ?_, fun T hT hsum => ?_, fun hf => ?_⟩
  · obtain ⟨s0', xs', b1, b2, b3⟩ := hrun n hn
    have : xs' = xs := by
      have := b3.symm.trans a3
      exact (List.map_inj_right (fun a b e => Option.some.inj e)).1 this
    subst this
    unfold makeHeapImage
    rw [b1]
    simp only [b2]
  · refine (told_fits hT _ s.events rfl (Nat.lt_of_le_of_lt (sum_le (hw.nodup.filter _) fun x hx => ?_) hsum)).1
    obtain ⟨h1, h2⟩ := List.mem_filter.1 hx
    obtain ⟨r, h3, h4⟩ := (hw.reach x h1).resolve_left (by simpa using h2)
    have : ∀ y, Reach g r y → y ∈ U := by
      intro y hy
      induction hy with
      | refl => exact hr r h3
      | step _ h5 ih => exact hU _ ih _ h5
    exact this x h4
  · obtain ⟨R, hi⟩ := hg hf
    refine ⟨fun p => (m p).getD 0, R, by simp [hi.null], ?_, hi.full, fun base hb hcap p hp hpr => ?_⟩
    · have : ∀ (rs xs : List Nat), rs.map m = xs.map some → xs = rs.map fun p => (m p).getD 0 := by
        intro rs
        induction rs with
        | nil => intro xs h; cases xs with | nil => rfl | cons => cases h
        | cons r rs ih =>
          intro xs h
          cases xs with
          | nil => cases h
          | cons x xs =>
            rw [List.map_cons, List.map_cons] at h
            injection h with e1 e2
            rw [List.map_cons, ← ih xs e2, e1]; rfl
      exact this roots xs a3
    · have seen : ∀ q, (∃ r ∈ roots, Reach g r q) → ∃ k, m q = some k := by
        rintro q ⟨r, h1, h2⟩
        exact Option.ne_none_iff_exists'.1 ((hw.seen q).2 (hw.all h1 h2))
      obtain ⟨k, hk⟩ := seen p hpr
      have hkd : (m p).getD 0 = k := by rw [hk]; rfl
      simp only [hkd]
      have hpos := hi.pos p k hp hk
      have hcapv : capacity = 2 ^ 26 := by decide
      have hfull := hi.full
      have inMap : ∀ i, i < (told o mem s.events).position → use base (told o mem s.events) i =
          if bit (told o mem s.events).map i = true then fixupWord base ((told o mem s.events).heap i) else (told o mem s.events).heap i := by
        intro i hi
        unfold use
        rw [fixupHeap_ok]
        by_cases hb : bit (told o mem s.events).map i = true
        · rw [if_pos hb, if_pos ⟨by omega, by unfold mapWords; omega, hb⟩]
        · rw [if_neg hb, if_neg (fun e => hb e.2.2)]
      -- a word of the surroundings or that is no reference is not marked
      have clear : ∀ i, o.lo R p k ≤ i → i < o.hi R p k → (∀ c ∈ g.refs p, k - 1 + o.off p c ≠ i) →
          use base (told o mem s.events) i = (told o mem s.events).heap i := by
        intro i h1 h2 h3
        rw [inMap i (by omega), if_neg]
        intro hb
        obtain ⟨x, k', c, b1, b2, b3⟩ := hi.bits i hb
        obtain ⟨c1, c2, c3⟩ := hi.dom x c b2
        by_cases hxp : x = p
        · subst hxp
          rw [hk] at b1; cases b1
          exact h3 c c3 b3.symm
        · obtain ⟨e1, e2, e3⟩ := hi.between hl c1 b1 (hl.inside (R x) x c c3)
          rcases hi.disj x p k' k c1 hp hxp b1 hk with h | h <;> omega
      refine ⟨by omega, hpos.2, fun q hq hqp hqr => ?_, fun j w hw' => ⟨fun c hc e => ?_, fun hnr => ?_⟩, fun hfx => ?_⟩
      · obtain ⟨l, hl'⟩ := seen q hqr
        rw [hl']
        exact hi.disj p q k l hp hq (fun e => hqp e.symm) hk hl'
      · subst e
        have hd : (p, c) ∈ pushes s.events := (hw.refs p c).2 ⟨(hw.seen p).1 (by rw [hk]; nofun), hc⟩
        obtain ⟨l, w', b1, b2, b3, b4⟩ := hi.ref p k c hk hd
        rw [hw'] at b2
        cases b2
        obtain ⟨e1, e2, e3⟩ := hi.between hl hp hk (hl.inside (R p) p c hc)
        have hll : l ≤ capacity := by
          by_cases ht : g.target p c = 0
          · rw [ht, hi.null] at b1; cases b1; decide
          · have h1 := hi.pos _ l ht b1
            have h2 := front_room (o := o) R (g.target p c)
            unfold Objects.hi Objects.lo at h1
            omega
        rw [inMap _ (by omega), b3, b1]
        have hmain := fixupWord_entry hb (l := l) (by omega) (by omega) w
        by_cases hbit : bit (told o mem s.events).map (k - 1 + o.off p c) = true
        · rw [if_pos hbit, hmain]; rfl
        · rw [if_neg hbit]
          have hz : entry l (w &&& 7) = 0 := Decidable.not_not.1 fun hne => hbit (b4 hne)
          have := entry_toNat (show l < 2 ^ 29 by omega) w
          rw [hz] at this ⊢
          have h0' : (0 : Word).toNat = 0 := rfl
          rw [h0'] at this ⊢
          have hl0 : l = 0 := by omega
          show 0 = address base l + _
          rw [hl0]
          show 0 = 0 + _
          omega
      · have hjl : j < (o.words (R p) p).length := by rw [← image_length]; exact (List.getElem?_eq_some_iff.1 hw').1
        obtain ⟨e1, e2, e3⟩ := hi.between hl hp hk hjl
        rw [clear _ (by omega) e2 (fun c hc e => hnr c hc (by omega))]
        exact hi.word p k j w hp hk hw' fun c hc => hnr c (hi.dom p c hc).2.2
      · obtain ⟨b1, b2, b3, b4⟩ := hi.head p k hp hk hfx
        have hfr : front (o.fixed (R p) p) = 3 := by unfold front fixieWords; rw [hfx]; rfl
        have hto : total (o.fixed (R p) p) (o.room (R p) p) = 3 + o.room (R p) p + maskWords (o.room (R p) p) := by unfold total fixieWords; rw [hfx]; rfl
        have hoff : ∀ c ∈ g.refs p, o.off p c < o.room (R p) p := fun c hc => Nat.lt_of_lt_of_le (hl.inside (R p) p c hc) (hl.fits (R p) p)
        refine ⟨?_, ?_, ?_, fun j hj => ?_⟩
        · rw [clear _ (by unfold Objects.lo; omega) (by unfold Objects.hi Objects.lo; omega) (fun c hc e => by have := hoff c hc; omega)]; exact b1
        · rw [clear _ (by unfold Objects.lo; omega) (by unfold Objects.hi Objects.lo; omega) (fun c hc e => by have := hoff c hc; omega)]; exact b2
        · rw [clear _ (by unfold Objects.lo; omega) (by unfold Objects.hi Objects.lo; omega) (fun c hc e => by have := hoff c hc; omega)]; exact b3
        · rw [clear _ (by unfold Objects.lo; omega) (by unfold Objects.hi Objects.lo; omega) (fun c hc e => by have := hoff c hc; omega)]; exact b4 j hj

/-! ### A case: two objects that refer to each other, one of them fixed -/

def pair : Graph := ⟨fun p => if p = 8 then [0, 2] else if p = 16 then [1] else [], fun p c => if p = 8 then (if c = 0 then 16 else 8) else 8⟩

def pairObjects : Objects := ⟨fun _ p => if p = 8 then [0, 77, 0, 88] else [99, 1], fun _ p => if p = 8 then 5 else 2, fun _ p => p = 8, fun _ c => c⟩

example : Laid pair pairObjects := by
  refine ⟨fun r p c hc => ?_, fun _ _ _ _ _ h => h, fun r p => ?_⟩
  · show c < (if p = 8 then [0, 77, 0, 88] else [99, 1] : List Word).length
    by_cases h8 : p = 8
    · subst h8
      have : c ∈ [0, 2] := hc
      simp at this
      rw [if_pos rfl]
      show c < 4
      omega
    · rw [if_neg h8]
      have : c ∈ (if p = 16 then [1] else []) := by
        have h : c ∈ (if p = 8 then [0, 2] else if p = 16 then [1] else []) := hc
        rwa [if_neg h8] at h
      by_cases h16 : p = 16
      · rw [if_pos h16] at this
        simp at this
        show c < 2
        omega
      · rw [if_neg h16] at this; cases this
  · show (if p = 8 then [0, 77, 0, 88] else [99, 1] : List Word).length ≤ (if p = 8 then 5 else 2)
    split <;> decide

/-- The image at address 4096: the header, object 8 at 4120 with its class (16) and its mark, the reference to itself, the mask, and object 16 at 4168. -/
example : (makeHeapImage pair pairObjects (fun _ => 5) 100 [8]).map (fun x => ((List.range 12).map (use 4096 x.1), x.1.failed, x.2)) =
    some ([0x500010006, 0, 0, 4168 ||| 3, 77, 4120, 88, 5, 0, 99, 4120 ||| 1, 5], false, [4]) := by decide +kernel

end Avian.BootImage
