import Verif.Interp.SimBasic
/-
Simulation of `tableswitch` and `lookupswitch`.
-/
namespace Avian.Interp

open Spec

section
variable {env : Env} {pl : Place} {mem1 : Nat → Slot} {f : Frame} {rest : List Frame} {b : Nat}
  {nx : BitVec 32} {heap : Heap} {log : List Ev} {len : Nat} {iv : Bool} {s : St}

theorem s4_range {c : List (BitVec 8)} {k : Nat} {v : Int} (h : s4 c k = some v) :
    -2147483648 ≤ v ∧ v < 2147483648 ∧ k < c.length := by
  obtain ⟨n, hu, rfl⟩ := map_some h
  have h1 := u4_lt hu
  obtain ⟨a, b, ha, _, _⟩ := u4_some hu
  obtain ⟨a', _, ha', _, _⟩ := u2_some ha
  obtain ⟨_, _, _, hk⟩ := u1_some ha'
  unfold signed
  split <;> omega

theorem toInt_ofInt32 {v : Int} (h1 : -2147483648 ≤ v) (h2 : v < 2147483648) :
    (BitVec.ofInt 32 v).toInt = v := by
  rw [BitVec.toInt_ofInt]
  unfold Int.bmod
  simp only
  repeat' split
  all_goals omega

theorem wp_fetchS4 {v : View} {Q : BitVec 32 → St → Prop} {T : St → Prop}
    {D : List Slot → St → Prop} {k : Nat} {x : Int} (ht : Top env mem1 v s)
    (hb : (env.meth v.m).code.body.length < 2 ^ 31)
    (hip : v.ip = BitVec.ofNat 32 k) (hn : s4 (env.meth v.m).code.body k = some x)
    (h : ∀ s', Top env mem1 { v with ip := BitVec.ofNat 32 (k + 4) } s' →
      Q (BitVec.ofInt 32 x) s') :
    wp (fetch32 env) Q T D s := by
  obtain ⟨n, hu, rfl⟩ := map_some hn
  refine wp_fetchU4 ht hb hip hu fun s' h' => ?_
  rw [sext32 (u4_lt hu)]
  exact h s' h'

theorem align_eq {pc : Nat} (h : pc < 2 ^ 31) :
    BitVec.ofNat 32 (pc + 1) + 3 - (BitVec.ofNat 32 (pc + 1) + 3) % 4 =
      BitVec.ofNat 32 (switchPos pc) := by
  apply BitVec.eq_of_toNat_eq
  simp only [BitVec.toNat_sub, BitVec.toNat_umod, BitVec.toNat_add, BitVec.toNat_ofNat,
    BitVec.reduceToNat]
  unfold switchPos
  omega

theorem wp_alignIp {v : View} {Q : Unit → St → Prop} {T : St → Prop} {D : List Slot → St → Prop}
    {pc : Nat} (ht : Top env mem1 v s) (hip : v.ip = BitVec.ofNat 32 (pc + 1)) (hpc : pc < 2 ^ 31)
    (h : ∀ s', Top env mem1 { v with ip := BitVec.ofNat 32 (switchPos pc) } s' → Q () s') :
    wp alignIp Q T D s := by
  refine wp_modS (h _ ?_)
  rw [show s.ip = BitVec.ofNat 32 (pc + 1) from ht.ip.trans hip, align_eq hpc]
  exact ht.withIp _

theorem s4s_get {c : List (BitVec 8)} : ∀ {n i : Nat} {ts : List Int}, s4s c i n = some ts →
    ts.length = n ∧ ∀ j v, ts[j]? = some v → s4 c (i + 4 * j) = some v := by
  intro n
  induction n with
  | zero => intro i ts h; cases h; exact ⟨rfl, fun j v hv => absurd hv (by simp)⟩
  | succ n ih =>
    intro i ts h
    obtain ⟨v, hv, h⟩ := bind_some h
    obtain ⟨r, hr, h⟩ := bind_some h
    cases h
    obtain ⟨h1, h2⟩ := ih hr
    refine ⟨by rw [List.length_cons, h1], fun j w hw => ?_⟩
    cases j with
    | zero =>
      simp only [List.getElem?_cons_zero, Option.some.injEq] at hw
      rw [← hw]; exact hv
    | succ j =>
      rw [List.getElem?_cons_succ] at hw
      have := h2 j w hw
      rw [show i + 4 * (j + 1) = i + 4 + 4 * j by omega]
      exact this

theorem pairs4_get {c : List (BitVec 8)} : ∀ {n i : Nat} {ps : List (Int × Int)},
    pairs4 c i n = some ps → ps.length = n ∧
      ∀ j k v, ps[j]? = some (k, v) → s4 c (i + 8 * j) = some k ∧ s4 c (i + 8 * j + 4) = some v := by
  intro n
  induction n with
  | zero => intro i ts h; cases h; exact ⟨rfl, fun j k v hv => absurd hv (by simp)⟩
  | succ n ih =>
    intro i ts h
    obtain ⟨k, hk, h⟩ := bind_some h
    obtain ⟨v, hv, h⟩ := bind_some h
    obtain ⟨r, hr, h⟩ := bind_some h
    cases h
    obtain ⟨h1, h2⟩ := ih hr
    refine ⟨by rw [List.length_cons, h1], fun j k' v' hw => ?_⟩
    cases j with
    | zero =>
      simp only [List.getElem?_cons_zero, Option.some.injEq, Prod.mk.injEq] at hw
      rw [← hw.1, ← hw.2]; exact ⟨hk, hv⟩
    | succ j =>
      rw [List.getElem?_cons_succ] at hw
      have := h2 j k' v' hw
      rw [show i + 8 * (j + 1) = i + 8 + 8 * j by omega]
      exact this

theorem keysSorted_lt : ∀ {ps : List (Int × Int)}, keysSorted ps = true →
    ∀ (i j : Nat) (x y : Int × Int), i < j → ps[i]? = some x → ps[j]? = some y → x.1 < y.1 := by
  intro ps
  induction ps with
  | nil => intro _ i j x y _ h; simp at h
  | cons p ps ih =>
    intro hs i j x y hij hx hy
    cases ps with
    | nil =>
      cases j with
      | zero => omega
      | succ j => simp at hy
    | cons q qs =>
      obtain ⟨a, a'⟩ := p
      obtain ⟨b, b'⟩ := q
      simp only [keysSorted, Bool.and_eq_true, decide_eq_true_eq] at hs
      cases j with
      | zero => omega
      | succ j =>
        rw [List.getElem?_cons_succ] at hy
        cases i with
        | zero =>
          simp only [List.getElem?_cons_zero, Option.some.injEq] at hx
          subst hx
          cases j with
          | zero =>
            simp only [List.getElem?_cons_zero, Option.some.injEq] at hy
            subst hy; exact hs.1
          | succ j =>
            have := ih hs.2 0 (j + 1) (b, b') y (by omega) rfl hy
            simp only at this ⊢
            omega
        | succ i =>
          rw [List.getElem?_cons_succ] at hx
          exact ih hs.2 i j x y (by omega) hx hy

theorem lookup_found {ps : List (Int × Int)} {key v d : Int} {j : Nat}
    (hs : keysSorted ps = true) (hj : ps[j]? = some (key, v)) : lookupTarget d ps key = v := by
  unfold lookupTarget
  cases hf : ps.find? fun p => p.1 == key with
  | none =>
    have := List.find?_eq_none.1 hf (key, v) (List.mem_of_getElem? hj)
    simp at this
  | some q =>
    have h1 := List.find?_some hf
    obtain ⟨i, hi⟩ := List.mem_iff_getElem?.1 (List.mem_of_find?_eq_some hf)
    simp only [beq_iff_eq] at h1
    rcases Nat.lt_trichotomy i j with h | h | h
    · have := keysSorted_lt hs i j _ _ h hi hj
      simp only at this; omega
    · subst h
      rw [hj] at hi
      cases hi
      rfl
    · have := keysSorted_lt hs j i _ _ h hj hi
      simp only at this; omega

theorem lookup_missing {ps : List (Int × Int)} {key d : Int}
    (h : ∀ (j : Nat) (k v : Int), ps[j]? = some (k, v) → k ≠ key) : lookupTarget d ps key = d := by
  unfold lookupTarget
  rw [List.find?_eq_none.2 fun q hq => ?_]
  · rfl
  · obtain ⟨i, hi⟩ := List.mem_iff_getElem?.1 hq
    simpa using h i q.1 q.2 hi

theorem exec_tableswitch {d lo hi : Int} {ts : List Int} {out : SOut}
    (h : exec env f rest heap log len (.tableswitch d lo hi ts) = some out) :
    ∃ key st, f.stack = .int key :: st ∧
      continueAt env f rest heap log (f.pc + tableTarget d lo hi ts key.toInt) f.locals st =
        some out := by
  obtain ⟨m, pc, locals, stack, lock⟩ := f
  match stack, h with
  | [], h => exact absurd h nofun
  | .obj _ :: _, h => exact absurd h nofun
  | .int a :: st, h => exact ⟨a, st, rfl, h⟩

theorem exec_lookupswitch {d : Int} {ps : List (Int × Int)} {out : SOut}
    (h : exec env f rest heap log len (.lookupswitch d ps) = some out) :
    ∃ key st, f.stack = .int key :: st ∧
      continueAt env f rest heap log (f.pc + lookupTarget d ps key.toInt) f.locals st =
        some out := by
  obtain ⟨m, pc, locals, stack, lock⟩ := f
  match stack, h with
  | [], h => exact absurd h nofun
  | .obj _ :: _, h => exact absurd h nofun
  | .int a :: st, h => exact ⟨a, st, rfl, h⟩

theorem base_add (pc : Nat) (off : Int) :
    BitVec.ofNat 32 (pc + 1) - 1 + BitVec.ofInt 32 off = BitVec.ofInt 32 ((pc : Int) + off) :=
  jump_ip pc 1 off

/-- The index of the jump table entry. -/
theorem table_ip {p j : Nat} {key : BitVec 32} {lo : Int} (hj : key.toInt = lo + j) :
    BitVec.ofNat 32 p + (key - BitVec.ofInt 32 lo) * 4 = BitVec.ofNat 32 (p + 4 * j) := by
  have hk : key = BitVec.ofInt 32 (lo + j) := by
    rw [← hj, BitVec.ofInt_toInt]
  rw [hk, BitVec.ofInt_add, BitVec.add_comm (BitVec.ofInt 32 lo), BitVec.add_sub_cancel,
    ofInt_natCast, BitVec.ofNat_add]
  congr 1
  apply BitVec.eq_of_toNat_eq
  simp only [BitVec.toNat_mul, BitVec.toNat_ofNat, BitVec.reduceToNat]
  omega

theorem sim_tableswitch {d lo hi : Int} {ts : List Int} (inv : Inv env pl mem1 f rest b nx)
    (ht : At env mem1 f b nx heap log (f.pc + 1) s)
    (hpc : f.pc < (env.meth f.m).code.body.length)
    (hd : s4 (env.meth f.m).code.body (switchPos f.pc) = some d)
    (hlo : s4 (env.meth f.m).code.body (switchPos f.pc + 4) = some lo)
    (hhi : s4 (env.meth f.m).code.body (switchPos f.pc + 8) = some hi)
    (hts : s4s (env.meth f.m).code.body (switchPos f.pc + 12) (hi - lo + 1).toNat = some ts) :
    InstrSim env pl mem1 f rest b nx heap log len iv
      (exec env f rest heap log len (.tableswitch d lo hi ts)) (tableswitchBody env) s := by
  intro out h
  have hb := inv.body
  obtain ⟨key, st, hst, h⟩ := exec_tableswitch h
  obtain ⟨l1, l2, _⟩ := s4_range hlo
  obtain ⟨u1, u2, _⟩ := s4_range hhi
  obtain ⟨ht1, ht2⟩ := s4s_get hts
  unfold tableswitchBody
  refine wp_bind (wp_getS (wp_bind (wp_alignIp ht rfl (by omega) fun s1 h1 => wp_bind
    (wp_fetchS4 h1 hb rfl hd fun s2 h2 => wp_bind
    (wp_fetchS4 h2 hb rfl hlo fun s3 h3 => wp_bind
    (wp_fetchS4 h3 hb rfl hhi fun s4 h4 => wp_bind (wp_popInt h4 hst fun s5 h5 => ?_)))))))
  rw [show s.ip = BitVec.ofNat 32 (f.pc + 1) from ht.ip]
  have hc : ((BitVec.ofInt 32 lo).sle key ∧ key.sle (BitVec.ofInt 32 hi)) ↔
      (lo ≤ key.toInt ∧ key.toInt ≤ hi) := by
    rw [BitVec.sle_iff_toInt_le, BitVec.sle_iff_toInt_le, toInt_ofInt32 l1 l2, toInt_ofInt32 u1 u2]
  by_cases hr : lo ≤ key.toInt ∧ key.toInt ≤ hi
  · rw [if_pos (hc.2 hr)]
    unfold tableTarget at h
    rw [if_pos hr] at h
    have hlt : (key.toInt - lo).toNat < ts.length := by omega
    have hg := List.getElem?_eq_getElem hlt
    rw [hg, Option.getD_some] at h
    have hs := ht2 _ _ hg
    refine wp_bind (wp_modS ?_)
    have h6 := h5.withIp (BitVec.ofNat 32 (switchPos f.pc + 12 + 4 * (key.toInt - lo).toNat))
    rw [show s5.ip = BitVec.ofNat 32 (switchPos f.pc + 12) from h5.ip,
      table_ip (j := (key.toInt - lo).toNat) (by omega)]
    refine wp_bind (wp_fetchS4 h6 hb rfl hs fun s7 h7 => wp_modS ?_)
    rw [base_add]
    exact cont_of inv h rfl (h7.withIp _) rfl
  · rw [if_neg (fun hh => hr (hc.1 hh))]
    unfold tableTarget at h
    rw [if_neg hr] at h
    refine wp_modS ?_
    rw [base_add]
    exact cont_of inv h rfl (h5.withIp _) rfl

theorem lookup_ip (p : Nat) (m : Nat) :
    BitVec.ofNat 32 p + BitVec.ofInt 32 ((m : Int) * 8) = BitVec.ofNat 32 (p + 8 * m) := by
  rw [show (m : Int) * 8 = ((8 * m : Nat) : Int) by omega, ofInt_natCast, BitVec.ofNat_add]

/-- The binary search finds the target. -/
theorem wp_lookupLoop {v : View} {T : St → Prop} {D : List Slot → St → Prop} {Q : Unit → St → Prop}
    {key : BitVec 32} {p pc : Nat} {d : Int} {ps : List (Int × Int)}
    (hb : (env.meth v.m).code.body.length < 2 ^ 31)
    (hget : ∀ j k x, ps[j]? = some (k, x) → s4 (env.meth v.m).code.body (p + 8 * j) = some k ∧
      s4 (env.meth v.m).code.body (p + 8 * j + 4) = some x)
    (hs : keysSorted ps = true)
    (h : ∀ s', Top env mem1
      { v with ip := BitVec.ofInt 32 ((pc : Int) + lookupTarget d ps key.toInt) } s' → Q () s') :
    ∀ (fuel : Nat) (lo hi : Nat) (s : St) (ip : BitVec 32), Top env mem1 { v with ip := ip } s →
      lo ≤ hi → hi ≤ ps.length → hi - lo < fuel →
      (∀ j k x, j < lo → ps[j]? = some (k, x) → k < key.toInt) →
      (∀ j k x, hi ≤ j → ps[j]? = some (k, x) → key.toInt < k) →
      wp (lookupLoop env key (BitVec.ofNat 32 p) (BitVec.ofNat 32 (pc + 1) - 1) (BitVec.ofInt 32 d)
        fuel (lo : Int) (hi : Int)) Q T D s := by
  intro fuel
  induction fuel with
  | zero => intro lo hi s ip _ _ _ hf; omega
  | succ fuel ih =>
    intro lo hi s ip ht hlh hhi hf hlow hhigh
    unfold lookupLoop
    simp only
    by_cases he : (hi : Int) - lo = 0
    · rw [if_pos he]
      refine wp_modS (h _ ?_)
      rw [base_add, lookup_missing (fun j k x hj => ?_)]
      · exact ht.withIp _
      · rcases Nat.lt_or_ge j lo with h' | h'
        · have := hlow j k x h' hj; omega
        · have := hhigh j k x (by omega) hj; omega
    · rw [if_neg he]
      have hm : (lo : Int) + Int.tdiv ((hi : Int) - lo) 2 = ((lo + (hi - lo) / 2 : Nat) : Int) := by
        rw [Int.tdiv_eq_ediv_of_nonneg (by omega)]; omega
      rw [hm]
      generalize hmid : lo + (hi - lo) / 2 = m
      have hml : m < ps.length := by omega
      obtain ⟨k, x, hkx⟩ : ∃ k x, ps[m]? = some (k, x) := ⟨_, _, List.getElem?_eq_getElem hml⟩
      obtain ⟨hk, hx⟩ := hget m k x hkx
      obtain ⟨r1, r2, _⟩ := s4_range hk
      refine wp_bind (wp_modS ?_)
      rw [lookup_ip]
      have h1 := ht.withIp (BitVec.ofNat 32 (p + 8 * m))
      refine wp_bind (wp_fetchS4 h1 hb rfl hk fun s2 h2 => ?_)
      rw [BitVec.slt_eq_decide, BitVec.slt_eq_decide, toInt_ofInt32 r1 r2]
      by_cases c1 : key.toInt < k
      · rw [if_pos (by simpa using c1)]
        refine ih lo m s2 _ h2 (by omega) (by omega) (by omega) hlow ?_
        intro j k' x' hj hj'
        rcases Nat.lt_or_eq_of_le hj with h' | h'
        · have := keysSorted_lt hs m j _ _ h' hkx hj'
          simp only at this
          omega
        · subst h'
          rw [hkx] at hj'
          cases hj'
          exact c1
      · rw [if_neg (by simpa using c1)]
        by_cases c2 : k < key.toInt
        · rw [if_pos (by simpa using c2)]
          have := ih (m + 1) hi s2 _ h2 (by omega) (by omega) (by omega) (fun j k' x' hj hj' => ?_) hhigh
          · exact this
          rcases Nat.lt_or_eq_of_le (Nat.le_of_lt_succ hj) with h' | h'
          · have := keysSorted_lt hs j m _ _ h' hj' hkx
            simp only at this
            omega
          · subst h'
            rw [hkx] at hj'
            cases hj'
            exact c2
        · rw [if_neg (by simpa using c2)]
          have hkk : k = key.toInt := by omega
          subst hkk
          refine wp_bind (wp_fetchS4 h2 hb rfl hx fun s3 h3 => wp_modS (h _ ?_))
          rw [base_add, lookup_found hs hkx]
          exact h3.withIp _

theorem sim_lookupswitch {d n : Int} {ps : List (Int × Int)} (inv : Inv env pl mem1 f rest b nx)
    (ht : At env mem1 f b nx heap log (f.pc + 1) s)
    (hpc : f.pc < (env.meth f.m).code.body.length)
    (hd : s4 (env.meth f.m).code.body (switchPos f.pc) = some d)
    (hn : s4 (env.meth f.m).code.body (switchPos f.pc + 4) = some n) (hn0 : 0 ≤ n)
    (hps : pairs4 (env.meth f.m).code.body (switchPos f.pc + 8) n.toNat = some ps)
    (hs : keysSorted ps = true) :
    InstrSim env pl mem1 f rest b nx heap log len iv
      (exec env f rest heap log len (.lookupswitch d ps)) (lookupswitchBody env) s := by
  intro out h
  have hb := inv.body
  obtain ⟨key, st, hst, h⟩ := exec_lookupswitch h
  obtain ⟨l1, l2, _⟩ := s4_range hn
  obtain ⟨ht1, ht2⟩ := pairs4_get hps
  unfold lookupswitchBody
  refine wp_bind (wp_getS (wp_bind (wp_alignIp ht rfl (by omega) fun s1 h1 => wp_bind
    (wp_fetchS4 h1 hb rfl hd fun s2 h2 => wp_bind
    (wp_fetchS4 h2 hb rfl hn fun s3 h3 => wp_bind
    (wp_popInt h3 hst fun s5 h5 => wp_bind (wp_getS ?_)))))))
  rw [toInt_ofInt32 l1 l2, if_neg (by omega), show s.ip = BitVec.ofNat 32 (f.pc + 1) from ht.ip,
    show s5.ip = BitVec.ofNat 32 (switchPos f.pc + 8) from h5.ip]
  have e0 : (BitVec.ofInt 32 n).toNat = n.toNat := by
    rw [BitVec.toNat_ofInt]; omega
  have e1 : n = ((ps.length : Nat) : Int) := by omega
  have := wp_lookupLoop
    (v := ⟨b, f.m, nx, f.locals, st, BitVec.ofNat 32 (switchPos f.pc + 8), 0#64, heap, log⟩)
    (key := key) (T := Thr env pl mem1 f rest b nx heap log len iv out)
    (D := Don env pl out) (Q := fun _ s' => Cont env pl out s') (d := d) (pc := f.pc) hb ht2 hs
    (fun s' h' => cont_of inv h rfl h' rfl) ((BitVec.ofInt 32 n).toNat + 1) 0 ps.length s5 _ h5
    (by omega) (by omega) (by rw [e0]; omega) (fun j k x hj => absurd hj (by omega))
    (fun j k x hj hj' => by rw [List.getElem?_eq_none hj] at hj'; exact absurd hj' nofun)
  rw [← e1] at this
  exact this

end
end Avian.Interp
