import Verif.Heap.BootImage
import Verif.Props.HeapWalk

/-
What holds of the boot image while it is made.
-/
namespace Avian.BootImage
open Avian.HeapWalk

variable {g : Graph} {o : Objects}

/-- The bit of a word in the map. -/
def bit (map : Nat → Word) (i : Nat) : Bool := (map (i / 64)).getLsbD (i % 64)

theorem bit_markBit (map : Nat → Word) (i j : Nat) : bit (markBit map i) j = (bit map j || decide (j = i)) := by
  unfold bit markBit
  by_cases h : j / 64 = i / 64
  · rw [if_pos h, BitVec.getLsbD_or]
    congr 1
    rw [BitVec.getLsbD_shiftLeft]
    have h1 : j % 64 < 64 := Nat.mod_lt _ (by decide)
    have h2 : i % 64 < 64 := Nat.mod_lt _ (by decide)
    simp only [h1, decide_true, Bool.true_and, BitVec.getLsbD_one]
    by_cases h3 : j = i
    · subst h3; simp
    · have : j % 64 ≠ i % 64 := by omega
      simp only [h3, decide_false]
      by_cases h4 : j % 64 < i % 64
      · simp [h4]
      · have : j % 64 - i % 64 ≠ 0 := by omega
        simp [this]
  · rw [if_neg h]
    have : j ≠ i := fun e => h (by rw [e])
    simp [this]

theorem fill_below {h : Nat → Word} {a i : Nat} {ws : List Word} (hi : i < a) : fill h a ws i = h i := by
  unfold fill; rw [if_neg (by omega)]

theorem fill_at {h : Nat → Word} {a j : Nat} {ws : List Word} {w : Word} (hj : ws[j]? = some w) : fill h a ws (a + j) = w := by
  unfold fill
  rw [if_pos (by omega), show a + j - a = j by omega, hj]; rfl

theorem fill_above {h : Nat → Word} {a i : Nat} {ws : List Word} (hi : a + ws.length ≤ i) : fill h a ws i = h i := by
  unfold fill
  by_cases h1 : a ≤ i
  · rw [if_pos h1, List.getElem?_eq_none (by omega)]; rfl
  · rw [if_neg h1]

/-- How the objects fit: references are in what is copied, each at a word of its own, and what is copied fits into its room. -/
structure Laid (g : Graph) (o : Objects) : Prop where
  inside : ∀ r p c, c ∈ g.refs p → o.off p c < (o.words r p).length
  apart : ∀ p c c', c ∈ g.refs p → c' ∈ g.refs p → o.off p c = o.off p c' → c = c'
  fits : ∀ r p, (o.words r p).length ≤ o.room r p

/-- What is copied of an object that was met over this reference. -/
def Objects.image (o : Objects) (r : Referer) (p : Nat) : List Word := copied (o.fixed r p) (o.words r p)

theorem image_length (r : Referer) (p : Nat) : (o.image r p).length = (o.words r p).length := by
  unfold Objects.image copied
  by_cases h : o.fixed r p = true
  · rw [if_pos h]; cases o.words r p <;> rfl
  · rw [if_neg h]

/-- Where an object with its surroundings begins and ends. -/
def Objects.lo (o : Objects) (R : Nat → Referer) (p k : Nat) : Nat := k - 1 - front (o.fixed (R p) p)
def Objects.hi (o : Objects) (R : Nat → Referer) (p k : Nat) : Nat := o.lo R p k + total (o.fixed (R p) p) (o.room (R p) p)

theorem front_room (R : Nat → Referer) (p : Nat) : front (o.fixed (R p) p) + o.room (R p) p ≤ total (o.fixed (R p) p) (o.room (R p) p) := by
  unfold front total
  cases o.fixed (R p) p <;> simp <;> omega

/-- The image so far: `m` are the numbers, `R` the references over which objects were met first, and `D` the references that were written. -/
structure Inv (g : Graph) (o : Objects) (v : Visitor) (m : Nat → Option Nat) (R : Nat → Referer) (D : Nat → Nat → Prop) : Prop where
  null : m 0 = some 0
  pos : ∀ x k, x ≠ 0 → m x = some k → front (o.fixed (R x) x) + 1 ≤ k ∧ o.hi R x k ≤ v.position
  full : v.position < capacity
  disj : ∀ x y k l, x ≠ 0 → y ≠ 0 → x ≠ y → m x = some k → m y = some l → o.hi R x k ≤ o.lo R y l ∨ o.hi R y l ≤ o.lo R x k
  dom : ∀ x c, D x c → x ≠ 0 ∧ m x ≠ none ∧ c ∈ g.refs x
  ref : ∀ x k c, m x = some k → D x c → ∃ l w, m (g.target x c) = some l ∧ (o.image (R x) x)[o.off x c]? = some w ∧
    v.heap (k - 1 + o.off x c) = entry l (w &&& 7) ∧ (entry l (w &&& 7) ≠ 0 → bit v.map (k - 1 + o.off x c) = true)
  word : ∀ x k j w, x ≠ 0 → m x = some k → (o.image (R x) x)[j]? = some w → (∀ c, D x c → o.off x c ≠ j) → v.heap (k - 1 + j) = w
  head : ∀ x k, x ≠ 0 → m x = some k → o.fixed (R x) x = true → v.heap (k - 4) = fixieHeader (o.room (R x) x) ∧ v.heap (k - 3) = 0 ∧ v.heap (k - 2) = 0 ∧
    ∀ j, j < maskWords (o.room (R x) x) → v.heap (k - 1 + o.room (R x) x + j) = 0
  bits : ∀ i, bit v.map i = true → ∃ x k c, m x = some k ∧ D x c ∧ i = k - 1 + o.off x c

/-- Where a word of an object is. -/
theorem Inv.between (hl : Laid g o) {v : Visitor} {m : Nat → Option Nat} {R : Nat → Referer} {D : Nat → Nat → Prop} (h : Inv g o v m R D) {x k j : Nat}
    (hx : x ≠ 0) (hm : m x = some k) (hj : j < (o.words (R x) x).length) :
    o.lo R x k + front (o.fixed (R x) x) = k - 1 ∧ k - 1 + j < o.hi R x k ∧ k - 1 + o.room (R x) x ≤ o.hi R x k := by
  have h1 := (h.pos x k hx hm).1
  have h2 := front_room (o := o) R x
  have h3 := hl.fits (R x) x
  unfold Objects.hi Objects.lo
  omega

theorem Inv.link (hl : Laid g o) {v : Visitor} {m : Nat → Option Nat} {R : Nat → Referer} {D : Nat → Nat → Prop} (h : Inv g o v m R D) {x k c l : Nat}
    (hc : v.current = some (x, k, c)) (hx : x ≠ 0) (hm : m x = some k) (hr : c ∈ g.refs x) (hd : ¬ D x c) (ht : m (g.target x c) = some l) :
    Inv g o (v.visit o l) m R (fun y d => D y d ∨ (y = x ∧ d = c)) := by
  have hj := hl.inside (R x) x c hr
  obtain ⟨b1, b2, b3⟩ := h.between hl hx hm hj
  obtain ⟨w, hw⟩ : ∃ w, (o.image (R x) x)[o.off x c]? = some w := by
    rw [← image_length] at hj
    exact ⟨_, List.getElem?_eq_getElem hj⟩
  have hcur : v.heap (k - 1 + o.off x c) = w := h.word x k _ w hx hm hw fun c' hc' e => by
    have := hl.apart x c' c (h.dom x c' hc').2.2 hr e
    subst this
    exact hd hc'
  -- every other word of an object
  have other : ∀ y k' i, y ≠ 0 → y ≠ x → m y = some k' → o.lo R y k' ≤ i → i < o.hi R y k' → i ≠ k - 1 + o.off x c := by
    intro y k' i hy hyx hm' h1 h2
    rcases h.disj x y k k' hx hy (fun e => hyx e.symm) hm hm' with h3 | h3 <;> omega
  have hv : v.visit o l = { v with map := if entry l (w &&& 7) ≠ 0 then markBit v.map (k - 1 + o.off x c) else v.map,
                                   heap := fun j => if j = k - 1 + o.off x c then entry l (w &&& 7) else v.heap j } := by
    unfold Visitor.visit
    rw [hc]
    simp only [hcur]
  rw [hv]
  have hbit : ∀ i, bit v.map i = true → bit (if entry l (w &&& 7) ≠ 0 then markBit v.map (k - 1 + o.off x c) else v.map) i = true := by
    intro i hi
    by_cases he : entry l (w &&& 7) ≠ 0
    · rw [if_pos he, bit_markBit, hi]; rfl
    · rw [if_neg he]; exact hi
  refine ⟨h.null, h.pos, h.full, h.disj, ?_, ?_, ?_, ?_, ?_⟩
  · rintro y d (hy | ⟨rfl, rfl⟩)
    · exact h.dom y d hy
    · exact ⟨hx, by rw [hm]; nofun, hr⟩
  · intro y k' d hm' hy
    by_cases he : y = x ∧ d = c
    · obtain ⟨rfl, rfl⟩ := he
      rw [hm] at hm'; cases hm'
      refine ⟨l, w, ht, hw, if_pos rfl, fun hne => ?_⟩
      show bit (if entry l (w &&& 7) ≠ 0 then _ else _) _ = true
      rw [if_pos hne, bit_markBit]; simp
    · have hy : D y d := hy.resolve_right he
      obtain ⟨l', w', a1, a2, a3, a4⟩ := h.ref y k' d hm' hy
      have hdy := h.dom y d hy
      refine ⟨l', w', a1, a2, ?_, fun hne => hbit _ (a4 hne)⟩
      show (if _ then _ else _) = _
      rw [if_neg ?_]
      · exact a3
      · by_cases hyx : y = x
        · subst hyx
          rw [hm] at hm'; cases hm'
          intro e
          exact he ⟨rfl, hl.apart y d c hdy.2.2 hr (by omega)⟩
        · obtain ⟨e1, e2, e3⟩ := h.between hl hdy.1 hm' (hl.inside (R y) y d hdy.2.2)
          exact other y k' _ hdy.1 hyx hm' (by omega) e2
  · intro y k' j w' hy hm' hw' hnd
    show (if _ then _ else _) = _
    have hjl : j < (o.words (R y) y).length := by
      rw [← image_length]; exact (List.getElem?_eq_some_iff.1 hw').1
    rw [if_neg ?_]
    · exact h.word y k' j w' hy hm' hw' fun c' hc' => hnd c' (Or.inl hc')
    · by_cases hyx : y = x
      · subst hyx
        rw [hm] at hm'; cases hm'
        have := hnd c (Or.inr ⟨rfl, rfl⟩)
        omega
      · obtain ⟨e1, e2, e3⟩ := h.between hl hy hm' hjl
        exact other y k' _ hy hyx hm' (by omega) e2
  · intro y k' hy hm' hf
    obtain ⟨a1, a2, a3, a4⟩ := h.head y k' hy hm' hf
    have hp := (h.pos y k' hy hm').1
    have hfr : front (o.fixed (R y) y) = 3 := by unfold front fixieWords; rw [hf]; rfl
    have hto : total (o.fixed (R y) y) (o.room (R y) y) = 3 + o.room (R y) y + maskWords (o.room (R y) y) := by unfold total fixieWords; rw [hf]; rfl
    have hne : ∀ i, (o.lo R y k' ≤ i ∧ i < k' - 1) ∨ (k' - 1 + o.room (R y) y ≤ i ∧ i < o.hi R y k') → i ≠ k - 1 + o.off x c := by
      intro i hi
      by_cases hyx : y = x
      · subst hyx
        rw [hm] at hm'; cases hm'
        have := hl.fits (R y) y
        omega
      · refine other y k' i hy hyx hm' ?_ ?_
        · unfold Objects.lo at *; omega
        · unfold Objects.hi Objects.lo at *; omega
    refine ⟨?_, ?_, ?_, fun j hj => ?_⟩
    · show (if _ then _ else _) = _
      rw [if_neg (hne _ (Or.inl (by unfold Objects.lo; omega)))]; exact a1
    · show (if _ then _ else _) = _
      rw [if_neg (hne _ (Or.inl (by unfold Objects.lo; omega)))]; exact a2
    · show (if _ then _ else _) = _
      rw [if_neg (hne _ (Or.inl (by unfold Objects.lo; omega)))]; exact a3
    · show (if _ then _ else _) = _
      rw [if_neg (hne _ (Or.inr (by unfold Objects.hi Objects.lo; omega)))]; exact a4 j hj
  · intro i hi
    have hi : bit (if entry l (w &&& 7) ≠ 0 then markBit v.map (k - 1 + o.off x c) else v.map) i = true := hi
    have old : bit v.map i = true → ∃ y k' d, m y = some k' ∧ (D y d ∨ (y = x ∧ d = c)) ∧ i = k' - 1 + o.off y d := fun h1 => by
      obtain ⟨y, k', d, a1, a2, a3⟩ := h.bits i h1
      exact ⟨y, k', d, a1, Or.inl a2, a3⟩
    by_cases he : entry l (w &&& 7) ≠ 0
    · rw [if_pos he, bit_markBit] at hi
      rcases Bool.or_eq_true_iff.1 hi with hi | hi
      · exact old hi
      · exact ⟨x, k, c, hm, Or.inr ⟨rfl, rfl⟩, of_decide_eq_true hi⟩
    · rw [if_neg he] at hi
      exact old hi

/-- An object and the reference over which it was met. -/
def met (R : Nat → Referer) (p : Nat) (r : Referer) : Nat → Referer := fun q => if q = p then r else R q

theorem Inv.alloc (hl : Laid g o) {v : Visitor} {m : Nat → Option Nat} {R : Nat → Referer} {D : Nat → Nat → Prop} (h : Inv g o v m R D) {p : Nat}
    (hp : p ≠ 0) (hm : m p = none) (hroom : v.position + total (o.fixed v.referer p) (o.room v.referer p) < capacity) :
    Inv g o (v.alloc o p) (put m p (v.number o p)) (met R p v.referer) D := by
  have hn : v.number o p = v.position + front (o.fixed v.referer p) + 1 := by unfold Visitor.number; rw [if_neg hp]
  have hRp : met R p v.referer p = v.referer := if_pos rfl
  have hR : ∀ x, x ≠ p → met R p v.referer x = R x := fun x hx => if_neg hx
  have hmp : put m p (v.number o p) p = some (v.number o p) := if_pos rfl
  have hmx : ∀ x, x ≠ p → put m p (v.number o p) x = m x := fun x hx => if_neg hx
  have hlo : o.lo (met R p v.referer) p (v.number o p) = v.position := by unfold Objects.lo; rw [hRp, hn]; omega
  have hhi : o.hi (met R p v.referer) p (v.number o p) = v.position + total (o.fixed v.referer p) (o.room v.referer p) := by
    unfold Objects.hi; rw [hlo, hRp]
  have hlo' : ∀ x k, x ≠ p → o.lo (met R p v.referer) x k = o.lo R x k := fun x k hx => by unfold Objects.lo; rw [hR x hx]
  have hhi' : ∀ x k, x ≠ p → o.hi (met R p v.referer) x k = o.hi R x k := fun x k hx => by unfold Objects.hi; rw [hlo' x k hx, hR x hx]
  have hfits := hl.fits v.referer p
  have hil := image_length (o := o) v.referer p
  have halloc : v.alloc o p = { v with
      heap := if o.fixed v.referer p = true then
          fill (fill (fill v.heap v.position [fixieHeader (o.room v.referer p), 0, 0]) (v.position + front (o.fixed v.referer p)) (o.image v.referer p))
            (v.position + fixieWords + o.room v.referer p) (List.replicate (maskWords (o.room v.referer p)) 0)
        else fill v.heap (v.position + front (o.fixed v.referer p)) (o.image v.referer p)
      position := v.position + total (o.fixed v.referer p) (o.room v.referer p) } := by
    unfold Visitor.alloc
    simp only [if_pos hroom]
    unfold Objects.image
    by_cases hf : o.fixed v.referer p = true
    · simp only [hf, if_pos]
    · simp only [hf, if_neg, not_false_eq_true]; rfl
  have below : ∀ i, i < v.position → (v.alloc o p).heap i = v.heap i := by
    intro i hi
    rw [halloc]
    simp only
    by_cases hf : o.fixed v.referer p = true
    · rw [if_pos hf, fill_below (by omega), fill_below (by omega), fill_below hi]
    · rw [if_neg hf, fill_below (by omega)]
  have hmap : (v.alloc o p).map = v.map := by rw [halloc]
  have hposn : (v.alloc o p).position = v.position + total (o.fixed v.referer p) (o.room v.referer p) := by rw [halloc]
  have own : ∀ j w, (o.image v.referer p)[j]? = some w → (v.alloc o p).heap (v.number o p - 1 + j) = w := by
    intro j w hj
    have hjl := (List.getElem?_eq_some_iff.1 hj).1
    rw [halloc, hn, show v.position + front (o.fixed v.referer p) + 1 - 1 + j = v.position + front (o.fixed v.referer p) + j by omega]
    simp only
    by_cases hf : o.fixed v.referer p = true
    · have : front (o.fixed v.referer p) = fixieWords := by unfold front; rw [if_pos hf]
      rw [if_pos hf, fill_below (by omega), fill_at hj]
    · rw [if_neg hf, fill_at hj]
  have ne0 : ∀ x, x ≠ p → ∀ k, m x = some k → x ≠ 0 → o.hi R x k ≤ v.position := fun x _ k hk hx => (h.pos x k hx hk).2
  refine ⟨?_, ?_, ?_, ?_, ?_, ?_, ?_, ?_, ?_⟩
  · rw [hmx 0 (fun e => hp e.symm)]; exact h.null
  · intro x k hx hk
    rw [hposn]
    by_cases hxp : x = p
    · subst hxp
      rw [hmp] at hk; cases hk
      rw [hhi, hRp, hn]; exact ⟨by omega, Nat.le_refl _⟩
    · rw [hmx x hxp] at hk
      have := h.pos x k hx hk
      rw [hhi' x k hxp, hR x hxp]; exact ⟨this.1, by omega⟩
  · rw [hposn]; exact hroom
  · intro x y k l hx hy hxy hk hk'
    by_cases hxp : x = p
    · subst hxp
      have hyx : y ≠ x := fun e => hxy e.symm
      rw [hmp] at hk; cases hk
      rw [hmx y hyx] at hk'
      right
      rw [hlo, hhi' y l hyx]; exact ne0 y hyx l hk' hy
    · rw [hmx x hxp] at hk
      by_cases hyp : y = p
      · subst hyp
        rw [hmp] at hk'; cases hk'
        left
        rw [hlo, hhi' x k hxp]; exact ne0 x hxp k hk hx
      · rw [hmx y hyp] at hk'
        rw [hlo' x k hxp, hlo' y l hyp, hhi' x k hxp, hhi' y l hyp]
        exact h.disj x y k l hx hy hxy hk hk'
  · intro x c hd
    obtain ⟨a1, a2, a3⟩ := h.dom x c hd
    refine ⟨a1, ?_, a3⟩
    have : x ≠ p := fun e => a2 (by rw [e]; exact hm)
    rw [hmx x this]; exact a2
  · intro x k c hk hd
    obtain ⟨a1, a2, a3⟩ := h.dom x c hd
    have hxp : x ≠ p := fun e => a2 (by rw [e]; exact hm)
    rw [hmx x hxp] at hk
    obtain ⟨l, w, b1, b2, b3, b4⟩ := h.ref x k c hk hd
    have hb := h.between hl a1 hk (hl.inside (R x) x c a3)
    have := ne0 x hxp k hk a1
    refine ⟨l, w, ?_, ?_, ?_, ?_⟩
    · have : g.target x c ≠ p := fun e => by rw [e, hm] at b1; cases b1
      rw [hmx _ this]; exact b1
    · rw [hR x hxp]; exact b2
    · rw [below _ (by omega)]; exact b3
    · rw [hmap]; exact b4
  · intro x k j w hx hk hw hnd
    by_cases hxp : x = p
    · subst hxp
      rw [hmp] at hk; cases hk
      rw [hRp] at hw
      exact own j w hw
    · rw [hmx x hxp] at hk
      rw [hR x hxp] at hw
      have hjl : j < (o.words (R x) x).length := by rw [← image_length]; exact (List.getElem?_eq_some_iff.1 hw).1
      have hb := h.between hl hx hk hjl
      have := ne0 x hxp k hk hx
      rw [below _ (by omega)]
      exact h.word x k j w hx hk hw hnd
  · intro x k hx hk hf
    by_cases hxp : x = p
    · subst hxp
      rw [hmp] at hk; cases hk
      rw [hRp] at hf ⊢
      have hfr : front (o.fixed v.referer x) = fixieWords := by unfold front; rw [if_pos hf]
      have hn' : v.number o x = v.position + 3 + 1 := by rw [hn, hfr]; rfl
      rw [halloc, hn']
      simp only [if_pos hf, hfr]
      have f3 : fixieWords = 3 := rfl
      refine ⟨?_, ?_, ?_, fun j hj => ?_⟩
      · rw [fill_below (by omega), fill_below (by omega), show v.position + 3 + 1 - 4 = v.position + 0 by omega, fill_at rfl]
      · rw [fill_below (by omega), fill_below (by omega), show v.position + 3 + 1 - 3 = v.position + 1 by omega, fill_at rfl]
      · rw [fill_below (by omega), fill_below (by omega), show v.position + 3 + 1 - 2 = v.position + 2 by omega, fill_at rfl]
      · rw [show v.position + 3 + 1 - 1 + o.room v.referer x + j = v.position + fixieWords + o.room v.referer x + j by omega,
          fill_at (w := 0) (by rw [List.getElem?_replicate, if_pos hj])]
    · rw [hmx x hxp] at hk
      rw [hR x hxp] at hf ⊢
      obtain ⟨a1, a2, a3, a4⟩ := h.head x k hx hk hf
      have hp1 := (h.pos x k hx hk).1
      have hp2 := ne0 x hxp k hk hx
      have hfr : front (o.fixed (R x) x) = 3 := by unfold front fixieWords; rw [hf]; rfl
      have hto : total (o.fixed (R x) x) (o.room (R x) x) = 3 + o.room (R x) x + maskWords (o.room (R x) x) := by unfold total fixieWords; rw [hf]; rfl
      unfold Objects.hi Objects.lo at hp2
      refine ⟨?_, ?_, ?_, fun j hj => ?_⟩
      · rw [below _ (by omega)]; exact a1
      · rw [below _ (by omega)]; exact a2
      · rw [below _ (by omega)]; exact a3
      · rw [below _ (by omega)]; exact a4 j hj
  · intro i hi
    rw [hmap] at hi
    obtain ⟨x, k, c, a1, a2, a3⟩ := h.bits i hi
    have : x ≠ p := fun e => by rw [e, hm] at a1; cases a1
    exact ⟨x, k, c, by rw [hmx x this]; exact a1, a2, a3⟩

end Avian.BootImage
