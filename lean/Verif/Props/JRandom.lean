import Verif.Lib.JRandom

/-
C107: random numbers.
-/
namespace Avian.JRandom

/-! ## Specification -/

/-- The linear congruential generator of java.util.Random. -/
def lcg (x : Nat) : Nat := (x * 25214903917 + 11) % 2 ^ 48

/-- `f` applied `n` times. -/
def iter {α : Type} (f : α → α) : Nat → α → α
  | 0, x => x
  | n + 1, x => iter f n (f x)

/-! ## The generator -/

theorem low48_toNat : low48.toNat = 2 ^ 48 - 1 := by decide

/-- Each seed follows from the one before as documented. -/
theorem step_lcg (s : BitVec 64) : (step s).toNat = lcg s.toNat := by
  unfold step lcg
  rw [BitVec.toNat_and, low48_toNat, Nat.and_two_pow_sub_one_eq_mod, BitVec.toNat_add, BitVec.toNat_mul]
  rw [show mask.toNat = 25214903917 by decide, show (0xB#64).toNat = 11 by decide]
  omega

theorem setSeed_toNat (s : BitVec 64) : (setSeed s).toNat = (s.toNat ^^^ 25214903917) % 2 ^ 48 := by
  unfold setSeed
  rw [BitVec.toNat_and, low48_toNat, Nat.and_two_pow_sub_one_eq_mod, BitVec.toNat_xor]
  rfl

example : (step (setSeed 42#64)).toNat = 204790973191750 := by decide +kernel

theorem step_lt (s : BitVec 64) : (step s).toNat < 2 ^ 48 := by
  rw [step_lcg]
  exact Nat.mod_lt _ (by decide)

/-- `next` gives the highest bits of the new seed. -/
theorem next_toNat (s : BitVec 64) (bits : Nat) (hb : bits ≤ 32) :
    (next s bits).1.toNat = lcg s.toNat / 2 ^ (48 - bits) ∧ (next s bits).1.toNat < 2 ^ bits := by
  have hl := step_lt s
  have hq : (step s).toNat / 2 ^ (48 - bits) < 2 ^ bits := by
    apply Nat.div_lt_of_lt_mul
    rw [← Nat.pow_add, show 48 - bits + bits = 48 by omega]
    exact hl
  have h32 : 2 ^ bits ≤ 2 ^ 32 := Nat.pow_le_pow_right (by omega) hb
  have : (next s bits).1.toNat = (step s).toNat / 2 ^ (48 - bits) := by
    unfold next
    simp only
    rw [BitVec.toNat_setWidth, BitVec.toNat_ushiftRight, Nat.shiftRight_eq_div_pow, Nat.mod_eq_of_lt (by omega)]
  rw [this, ← step_lcg]
  exact ⟨rfl, hq⟩

theorem next31_toInt (s : BitVec 64) : (next s 31).1.toInt = ((step s).toNat / 2 ^ 17 : Nat) ∧ (step s).toNat / 2 ^ 17 < 2 ^ 31 := by
  have h := next_toNat s 31 (by omega)
  rw [← step_lcg] at h
  have h1 : (next s 31).1.toNat = (step s).toNat / 2 ^ 17 := h.1
  refine ⟨?_, by rw [← h1]; exact h.2⟩
  rw [BitVec.toInt_eq_toNat_of_lt (by omega), h1]

/-! ## The period -/

/-- The generator without reduction. -/
def g (x : Nat) : Nat := x * 25214903917 + 11

def giter : Nat → Nat → Nat
  | 0, x => x
  | n + 1, x => giter n (g x)

theorem giter_add (n m x : Nat) : giter (n + m) x = giter m (giter n x) := by
  induction n generalizing x with
  | zero => rw [Nat.zero_add]; rfl
  | succ n ih => rw [show n + 1 + m = (n + m) + 1 by omega, giter, ih]; rfl

theorem giter_affine (n x d : Nat) : giter n (x + d) = giter n x + 25214903917 ^ n * d := by
  induction n generalizing x d with
  | zero => simp [giter]
  | succ n ih =>
    rw [giter, giter, show g (x + d) = g x + 25214903917 * d by unfold g; omega, ih, Nat.pow_succ, Nat.mul_assoc]

theorem pow_mod4 (n : Nat) : 25214903917 ^ n % 4 = 1 := by
  induction n with
  | zero => rfl
  | succ n ih => rw [Nat.pow_succ, Nat.mul_mod, ih]

theorem giter_two_pow (k s : Nat) : ∃ w : Nat, giter (2 ^ k) s = s + 2 ^ k * w ∧ w % 2 = 1 := by
  induction k generalizing s with
  | zero => exact ⟨s * 25214903916 + 11, by simp only [Nat.pow_zero, giter, g]; omega, by omega⟩
  | succ k ih =>
    obtain ⟨w, hw, ho⟩ := ih s
    have h4 := pow_mod4 (2 ^ k)
    generalize hp : 25214903917 ^ (2 ^ k) = p at h4
    obtain ⟨q, hq⟩ : ∃ q, 1 + p = 2 * (2 * q + 1) := ⟨(p - 1) / 4, by omega⟩
    refine ⟨w * (2 * q + 1), ?_, by rw [Nat.mul_mod, ho]; omega⟩
    rw [show 2 ^ (k + 1) = 2 ^ k + 2 ^ k by rw [Nat.pow_succ]; omega, giter_add, hw, giter_affine, hw, hp]
    have : 2 ^ k * w + p * (2 ^ k * w) = (1 + p) * (2 ^ k * w) := by rw [Nat.add_mul, Nat.one_mul]
    rw [Nat.add_assoc, this, hq]
    generalize 2 ^ k = c
    grind

/-- Modulo a power of two, every number is reached from every number. -/
theorem giter_reach (k s t : Nat) : ∃ n : Nat, n < 2 ^ k ∧ giter n s % 2 ^ k = t % 2 ^ k := by
  induction k with
  | zero => exact ⟨0, by simp, by simp [Nat.mod_one]⟩
  | succ k ih =>
    obtain ⟨n, hn, he⟩ := ih
    have hpow : 2 ^ (k + 1) = 2 * 2 ^ k := by rw [Nat.pow_succ]; omega
    have hpos : 0 < 2 ^ k := Nat.two_pow_pos k
    by_cases h : giter n s % 2 ^ (k + 1) = t % 2 ^ (k + 1)
    · exact ⟨n, by omega, h⟩
    · refine ⟨n + 2 ^ k, by omega, ?_⟩
      obtain ⟨w, hw, ho⟩ := giter_two_pow k (giter n s)
      rw [giter_add, hw]
      obtain ⟨v, hv⟩ : ∃ v, w = 2 * v + 1 := ⟨w / 2, by omega⟩
      have hm : ∀ x : Nat, x % (2 * 2 ^ k) = x % 2 ^ k ∨ x % (2 * 2 ^ k) = x % 2 ^ k + 2 ^ k := by
        intro x
        have h1 : x % (2 * 2 ^ k) < 2 * 2 ^ k := Nat.mod_lt _ (by omega)
        have h2 : x % (2 * 2 ^ k) % 2 ^ k = x % 2 ^ k := Nat.mod_mul_left_mod x 2 (2 ^ k)
        by_cases h3 : x % (2 * 2 ^ k) < 2 ^ k
        · left; rw [Nat.mod_eq_of_lt h3] at h2; exact h2
        · right
          rw [Nat.mod_eq_sub_mod (by omega), Nat.mod_eq_of_lt (by omega)] at h2
          omega
      rw [hv, show giter n s + 2 ^ k * (2 * v + 1) = (giter n s + 2 ^ k) + (2 * 2 ^ k) * v by grind, hpow, Nat.add_mul_mod_self_left]
      rw [hpow] at h
      have ha := hm (giter n s)
      have hb := hm t
      have hc : giter n s % (2 * 2 ^ k) < 2 * 2 ^ k := Nat.mod_lt _ (by omega)
      rw [Nat.add_mod, Nat.mod_eq_of_lt (show 2 ^ k < 2 * 2 ^ k by omega)]
      rcases ha with ha | ha
      · rcases hb with hb | hb
        · omega
        · rw [Nat.mod_eq_of_lt (by omega)]; omega
      · rcases hb with hb | hb
        · rw [ha, Nat.mod_eq_sub_mod (by omega), Nat.mod_eq_of_lt (by omega)]; omega
        · omega

theorem giter_mod (k m x y : Nat) (h : x % k = y % k) : giter m x % k = giter m y % k := by
  induction m generalizing x y with
  | zero => rw [giter, giter]; exact h
  | succ m ih =>
    rw [giter, giter]
    apply ih
    unfold g
    rw [Nat.add_mod, Nat.mul_mod, h, ← Nat.mul_mod, ← Nat.add_mod]

theorem lcg_g (x : Nat) : lcg x % 2 ^ 48 = g x % 2 ^ 48 := by
  unfold lcg g
  rw [Nat.mod_mod]

theorem after_giter (k : Nat) (hk : k = 2 ^ 48) (n : Nat) (s : BitVec 64) : (iter step n s).toNat % k = giter n s.toNat % k := by
  induction n generalizing s with
  | zero => rw [iter, giter]
  | succ n ih =>
    have h := lcg_g s.toNat
    rw [← hk] at h
    rw [iter, giter, ih, step_lcg]
    exact giter_mod k n _ _ h

theorem after_lt (k : Nat) (hk : k = 2 ^ 48) (n : Nat) (s : BitVec 64) (h : s.toNat < k) : (iter step n s).toNat < k := by
  induction n generalizing s with
  | zero => rw [iter]; exact h
  | succ n ih =>
    rw [iter]
    have h1 := step_lt s
    rw [← hk] at h1
    exact ih (step s) h1

theorem reach_at (k : Nat) (hk : k = 2 ^ 48) (s t : BitVec 64) (ht : t.toNat < k) : ∃ n : Nat, n < k ∧ iter step (n + 1) s = t := by
  have hr := giter_reach 48 (step s).toNat t.toNat
  rw [← hk] at hr
  obtain ⟨n, hn, he⟩ := hr
  have h1 := after_giter k hk n (step s)
  have h2 := step_lt s
  rw [← hk] at h2
  have h3 := after_lt k hk n (step s) h2
  refine ⟨n, hn, ?_⟩
  rw [iter]
  apply BitVec.eq_of_toNat_eq
  rw [Nat.mod_eq_of_lt h3] at h1
  rw [h1, he, Nat.mod_eq_of_lt ht]

/-- The full period: from any seed, every seed of 48 bits follows, after at most 2^48 numbers. -/
theorem full_period (s t : BitVec 64) (ht : t.toNat < 2 ^ 48) : ∃ n : Nat, 0 < n ∧ n ≤ 2 ^ 48 ∧ iter step n s = t := by
  obtain ⟨n, hn, he⟩ := reach_at (2 ^ 48) rfl s t ht
  exact ⟨n + 1, Nat.succ_pos n, Nat.succ_le_of_lt hn, he⟩

/-! ## nextInt -/

theorem multiples (bits limit k : Nat) (h0 : 0 < limit) : (bits / limit + 1) * limit ≤ k ↔ bits < k / limit * limit := by
  have hd := Nat.div_add_mod bits limit
  have hmod := Nat.mod_lt bits h0
  rw [← Nat.le_div_iff_mul_le h0]
  constructor
  · intro h
    have := Nat.mul_le_mul_right limit h
    rw [Nat.add_mul, Nat.one_mul, Nat.mul_comm (bits / limit)] at this
    omega
  · intro h
    exact Nat.succ_le_of_lt ((Nat.div_lt_iff_lt_mul h0).mpr h)

/-- The numbers that are taken are those below the largest multiple of the limit: every result belongs to the same number of them. -/
theorem accept_iff (bits limit : Nat) (hb : bits < 2 ^ 31) (h0 : 0 < limit) (hl : limit < 2 ^ 31) :
    ¬ wrap (wrap ((bits : Int) - ((bits : Int).tmod limit)) + ((limit : Int) - 1)) < 0 ↔ bits < 2 ^ 31 / limit * limit := by
  have hm : (bits : Int).tmod limit = ((bits % limit : Nat) : Int) := by
    rw [Int.tmod_eq_emod_of_nonneg (by omega)]
    exact (Int.natCast_emod bits limit).symm
  rw [hm]
  have hd := Nat.div_add_mod bits limit
  have hmod := Nat.mod_lt bits h0
  have hle : bits % limit ≤ bits := Nat.mod_le _ _
  have e : wrap ((bits : Int) - ((bits % limit : Nat) : Int)) = ((limit * (bits / limit) : Nat) : Int) := by unfold wrap; omega
  rw [e]
  have e2 : (¬ wrap (((limit * (bits / limit) : Nat) : Int) + ((limit : Int) - 1)) < 0) ↔ limit * (bits / limit) + limit ≤ 2 ^ 31 := by
    have : limit * (bits / limit) < 2 ^ 31 := by omega
    generalize limit * (bits / limit) = z at this
    unfold wrap
    omega
  rw [e2]
  have h3 : limit * (bits / limit) + limit = (bits / limit + 1) * limit := by rw [Nat.add_mul, Nat.one_mul, Nat.mul_comm]
  rw [h3]
  exact multiples bits limit (2 ^ 31) h0

/-- Each result has the same share: the numbers taken that give `v` are `q * limit + v` for `2^31 / limit` values of `q`. -/
theorem share_iff (bits limit v : Nat) (hb : bits < 2 ^ 31) (h0 : 0 < limit) (hl : limit < 2 ^ 31) (hv : v < limit) :
    (¬ wrap (wrap ((bits : Int) - ((bits : Int).tmod limit)) + ((limit : Int) - 1)) < 0 ∧ (bits : Int).tmod limit = v) ↔
      ∃ q, q < 2 ^ 31 / limit ∧ bits = q * limit + v := by
  rw [accept_iff bits limit hb h0 hl]
  have hm : (bits : Int).tmod limit = ((bits % limit : Nat) : Int) := by
    rw [Int.tmod_eq_emod_of_nonneg (by omega)]
    exact (Int.natCast_emod bits limit).symm
  rw [hm]
  generalize 2 ^ 31 / limit = w
  constructor
  · intro ⟨h1, h2⟩
    have hd := Nat.div_add_mod bits limit
    refine ⟨bits / limit, Nat.div_lt_of_lt_mul (by rw [Nat.mul_comm]; exact h1), ?_⟩
    rw [Nat.mul_comm]
    omega
  · intro ⟨q, hq, he⟩
    have : (q + 1) * limit ≤ w * limit := Nat.mul_le_mul_right _ hq
    rw [Nat.add_mul, Nat.one_mul] at this
    refine ⟨by omega, ?_⟩
    rw [he, Nat.add_comm, Nat.add_mul_mod_self_right, Nat.mod_eq_of_lt hv]

example : (¬ wrap (wrap ((2147483599 : Nat) - ((2147483599 : Nat) : Int).tmod (100 : Nat)) + (((100 : Nat) : Int) - 1)) < 0 ∧
    ((2147483599 : Nat) : Int).tmod (100 : Nat) = (99 : Nat)) := by decide +kernel

/-- `next(31)`. -/
abbrev next31 : BitVec 64 → BitVec 32 × BitVec 64 := fun seed => next seed 31

theorem loop_range (limit : Int) (h0 : 0 < limit) (n : Nat) (s s' : BitVec 64) (v : Int) (h : nextIntLoop next31 limit n s = .value v s') :
    0 ≤ v ∧ v < limit := by
  induction n generalizing s with
  | zero => simp [nextIntLoop] at h
  | succ n ih =>
    have hb := (next31_toInt s).1
    unfold nextIntLoop at h
    simp only [next31] at h
    by_cases hc : wrap (wrap ((next s 31).1.toInt - (next s 31).1.toInt.tmod limit) + (limit - 1)) < 0
    · rw [if_pos hc] at h; exact ih _ h
    · rw [if_neg hc] at h
      simp only [Result.value.injEq] at h
      rw [← h.1, Int.tmod_eq_emod_of_nonneg (by omega)]
      exact ⟨Int.emod_nonneg _ (by omega), Int.emod_lt_of_pos _ h0⟩

theorem pow_branch (limit : BitVec 32) (h0 : 0 < limit.toInt) (s : BitVec 64) :
    ((limit.signExtend 64 * (next s 31).1.signExtend 64).sshiftRight 31 |>.setWidth 32).toInt =
      ((limit.toNat * ((step s).toNat / 2 ^ 17) / 2 ^ 31 : Nat) : Int) ∧ limit.toNat * ((step s).toNat / 2 ^ 17) / 2 ^ 31 < limit.toNat := by
  obtain ⟨hb, hlt⟩ := next31_toInt s
  have hl : limit.toNat < 2 ^ 31 := by
    have := BitVec.toInt_eq_toNat_cond limit
    have := limit.isLt
    omega
  have hli : limit.msb = false := by rw [BitVec.msb_eq_decide]; simp; omega
  have hbn : (next s 31).1.toNat = (step s).toNat / 2 ^ 17 := by
    have := next_toNat s 31 (by omega)
    rw [← step_lcg] at this
    exact this.1
  have hbm : (next s 31).1.msb = false := by rw [BitVec.msb_eq_decide]; simp; omega
  rw [BitVec.signExtend_eq_setWidth_of_msb_false hli, BitVec.signExtend_eq_setWidth_of_msb_false hbm]
  generalize (step s).toNat / 2 ^ 17 = b at hlt hbn
  have hmul : limit.toNat * b < 2 ^ 62 := by
    calc limit.toNat * b ≤ limit.toNat * 2 ^ 31 := Nat.mul_le_mul_left _ (by omega)
      _ < 2 ^ 31 * 2 ^ 31 := Nat.mul_lt_mul_of_pos_right hl (by decide)
      _ = 2 ^ 62 := by decide
  have hprod : (limit.setWidth 64 * (next s 31).1.setWidth 64).toNat = limit.toNat * b := by
    rw [BitVec.toNat_mul, BitVec.toNat_setWidth, BitVec.toNat_setWidth, hbn, Nat.mod_eq_of_lt (show limit.toNat < 2 ^ 64 by omega),
      Nat.mod_eq_of_lt (show b < 2 ^ 64 by omega), Nat.mod_eq_of_lt (by omega)]
  have hpm : (limit.setWidth 64 * (next s 31).1.setWidth 64).msb = false := by rw [BitVec.msb_eq_decide]; simp only [hprod]; simp; omega
  have hq : limit.toNat * b / 2 ^ 31 < limit.toNat ∨ limit.toNat = 0 := by
    by_cases hz : limit.toNat = 0
    · right; exact hz
    · left
      apply Nat.div_lt_of_lt_mul
      rw [Nat.mul_comm (2 ^ 31)]
      exact Nat.mul_lt_mul_of_pos_left hlt (by omega)
  have hz : limit.toNat ≠ 0 := by
    intro h
    have : limit = 0 := BitVec.eq_of_toNat_eq (by rw [h]; rfl)
    rw [this] at h0
    simp at h0
  have hq : limit.toNat * b / 2 ^ 31 < limit.toNat := by omega
  refine ⟨?_, hq⟩
  rw [BitVec.sshiftRight_eq_of_msb_false hpm]
  have : ((limit.setWidth 64 * (next s 31).1.setWidth 64) >>> 31 |>.setWidth 32).toNat = limit.toNat * b / 2 ^ 31 := by
    rw [BitVec.toNat_setWidth, BitVec.toNat_ushiftRight, hprod, Nat.shiftRight_eq_div_pow, Nat.mod_eq_of_lt (by omega)]
  rw [BitVec.toInt_eq_toNat_of_lt (by omega), this]

/-- `nextInt(limit)` is between 0 and the limit, without the limit; a limit that is not positive is refused. -/
theorem nextInt_range (n : Nat) (limit : BitVec 32) (s s' : BitVec 64) (v : Int) (h : nextInt n limit s = .value v s') :
    0 ≤ v ∧ v < limit.toInt := by
  unfold nextInt at h
  by_cases h0 : limit.toInt ≤ 0
  · rw [if_pos h0] at h; simp at h
  · rw [if_neg h0] at h
    by_cases hp : limit &&& -limit = limit
    · rw [if_pos hp] at h
      obtain ⟨he, hlt⟩ := pow_branch limit (by omega) s
      simp only [Result.value.injEq] at h
      rw [← h.1, he]
      have hl : limit.toInt = limit.toNat := by
        have := BitVec.toInt_eq_toNat_cond limit
        have := limit.isLt
        omega
      rw [hl]
      omega
    · rw [if_neg hp] at h
      exact loop_range _ (by omega) n s s' v h

theorem nextInt_refused (n : Nat) (limit : BitVec 32) (s : BitVec 64) : nextInt n limit s = .illegalArgument ↔ limit.toInt ≤ 0 := by
  unfold nextInt
  constructor
  · intro h
    by_cases h0 : limit.toInt ≤ 0
    · exact h0
    · rw [if_neg h0] at h
      by_cases hp : limit &&& -limit = limit
      · rw [if_pos hp] at h; simp at h
      · rw [if_neg hp] at h
        exfalso
        have : ∀ (m : Nat) (x : BitVec 64), nextIntLoop next31 limit.toInt m x ≠ .illegalArgument := by
          intro m
          induction m with
          | zero => intro x; simp [nextIntLoop]
          | succ m ih =>
            intro x hx
            unfold nextIntLoop at hx
            simp only at hx
            split at hx
            · exact ih _ hx
            · simp at hx
        exact this _ _ h
  · intro h; rw [if_pos h]

theorem loop_ends_of (f : BitVec 64 → BitVec 32 × BitVec 64) (d : Nat)
    (hf : ∀ x, (f x).1.toInt = (((f x).2.toNat / d : Nat) : Int) ∧ (f x).2.toNat / d < 2 ^ 31)
    (limit : Nat) (h0 : 0 < limit) (hl : limit < 2 ^ 31) (n : Nat) (s : BitVec 64) (hn : 0 < n) (h : (iter (fun x => (f x).2) n s).toNat = 0) :
    ∃ (v : Int) (s' : BitVec 64), nextIntLoop f limit n s = .value v s' := by
  induction n generalizing s with
  | zero => omega
  | succ n ih =>
    have hb := (hf s).1
    rw [iter] at h
    unfold nextIntLoop
    simp only
    rw [hb]
    by_cases hc : wrap (wrap ((((f s).2.toNat / d : Nat) : Int) - (((f s).2.toNat / d : Nat) : Int).tmod limit) + ((limit : Int) - 1)) < 0
    · rw [if_pos hc]
      cases n with
      | zero =>
        exfalso
        rw [iter] at h
        rw [h, Nat.zero_div] at hc
        have := (accept_iff 0 limit (by omega) h0 hl).mpr (by
          have : 0 < 2 ^ 31 / limit := Nat.div_pos (by omega) h0
          exact Nat.mul_pos this h0)
        exact this hc
      | succ n => exact ih (f s).2 (by omega) h
    · rw [if_neg hc]
      exact ⟨_, _, rfl⟩

theorem loop_ends (limit : Nat) (h0 : 0 < limit) (hl : limit < 2 ^ 31) (n : Nat) (s : BitVec 64) (hn : 0 < n) (h : (iter step n s).toNat = 0) :
    ∃ (v : Int) (s' : BitVec 64), nextIntLoop next31 limit n s = .value v s' :=
  loop_ends_of next31 (2 ^ 17) (fun x => next31_toInt x) limit h0 hl n s hn h

/-- `nextInt` ends for every seed: the loop is left after at most 2^48 rounds. -/
theorem nextInt_ends (limit : BitVec 32) (h0 : 0 < limit.toInt) (s : BitVec 64) :
    ∃ (n : Nat) (v : Int) (s' : BitVec 64), n ≤ 2 ^ 48 ∧ nextInt n limit s = .value v s' := by
  have hl : limit.toInt = limit.toNat ∧ limit.toNat < 2 ^ 31 := by
    have := BitVec.toInt_eq_toNat_cond limit
    have := limit.isLt
    omega
  by_cases hp : limit &&& -limit = limit
  · have hv : ∃ (v : Int) (s' : BitVec 64), nextInt 0 limit s = .value v s' := by
      unfold nextInt
      rw [if_neg (by omega), if_pos hp]
      exact ⟨_, _, rfl⟩
    obtain ⟨v, s', hv⟩ := hv
    exact ⟨0, v, s', Nat.zero_le _, hv⟩
  · obtain ⟨n, hn, hle, he⟩ := full_period s 0#64 (by decide)
    obtain ⟨v, s', hv⟩ := loop_ends limit.toNat (by omega) hl.2 n s hn (by rw [he]; rfl)
    refine ⟨n, v, s', hle, ?_⟩
    unfold nextInt
    rw [if_neg (by omega), if_neg hp, hl.1]
    exact hv

example : nextInt 1 100#32 (setSeed 42#64) = .value 30 (BitVec.ofNat 64 204790973191750) := by decide +kernel

theorem iter_succ {α : Type} (f : α → α) (m : Nat) (x : α) : iter f (m + 1) x = f (iter f m x) := by
  induction m generalizing x with
  | zero => rfl
  | succ m ih => exact ih (f x)

/-- For each seed of 48 bits there is one before it. -/
theorem step_onto (t : BitVec 64) (ht : t.toNat < 2 ^ 48) : ∃ s : BitVec 64, step s = t := by
  obtain ⟨n, hn, _, he⟩ := full_period t t ht
  obtain ⟨m, rfl⟩ : ∃ m, n = m + 1 := ⟨n - 1, by omega⟩
  exact ⟨iter step m t, by rw [← iter_succ step m t]; exact he⟩

/-- Every value below the limit can be the result. -/
theorem nextInt_onto (limit : BitVec 32) (h0 : 0 < limit.toInt) (v : Nat) (hv : v < limit.toNat) :
    ∃ s s' : BitVec 64, nextInt 1 limit s = .value v s' := by
  have hl : limit.toInt = limit.toNat ∧ limit.toNat < 2 ^ 31 := by
    have := BitVec.toInt_eq_toNat_cond limit
    have := limit.isLt
    omega
  have pick : ∀ b : Nat, b < 2 ^ 31 → ∃ s : BitVec 64, (step s).toNat / 2 ^ 17 = b := by
    intro b hb
    have ht : (BitVec.ofNat 64 (b * 2 ^ 17)).toNat = b * 2 ^ 17 := by rw [BitVec.toNat_ofNat]; omega
    obtain ⟨s, hs⟩ := step_onto (BitVec.ofNat 64 (b * 2 ^ 17)) (by omega)
    exact ⟨s, by rw [hs, ht]; omega⟩
  by_cases hp : limit &&& -limit = limit
  · have hlp : 0 < limit.toNat := by omega
    have hdm := Nat.div_add_mod (v * 2 ^ 31 + (limit.toNat - 1)) limit.toNat
    have hml := Nat.mod_lt (v * 2 ^ 31 + (limit.toNat - 1)) hlp
    generalize hq : (v * 2 ^ 31 + (limit.toNat - 1)) / limit.toNat = b at hdm
    have hb : b < 2 ^ 31 := by
      rw [← hq]
      apply Nat.div_lt_of_lt_mul
      have : (v + 1) * 2 ^ 31 ≤ limit.toNat * 2 ^ 31 := Nat.mul_le_mul_right _ hv
      omega
    obtain ⟨s, hs⟩ := pick b hb
    obtain ⟨he, _⟩ := pow_branch limit h0 s
    refine ⟨s, (next s 31).2, ?_⟩
    unfold nextInt
    rw [if_neg (by omega), if_pos hp, he, hs]
    congr 2
    omega
  · obtain ⟨s, hs⟩ := pick v (by omega)
    obtain ⟨hb, _⟩ := next31_toInt s
    have hacc := (accept_iff v limit.toNat (by omega) (by omega) hl.2).mpr (by
      have : 1 ≤ 2 ^ 31 / limit.toNat := Nat.div_pos (by omega) (by omega)
      have := Nat.mul_le_mul_right limit.toNat this
      omega)
    refine ⟨s, (next s 31).2, ?_⟩
    unfold nextInt nextIntLoop
    rw [if_neg (by omega), if_neg hp, hb, hs, hl.1]
    simp only
    rw [if_neg hacc, Int.tmod_eq_emod_of_nonneg (by omega), Int.emod_eq_of_lt (by omega) (by omega)]

theorem loop_one (f : BitVec 64 → BitVec 32 × BitVec 64) (limit b : Nat) (s : BitVec 64) (hb : (f s).1.toInt = (b : Int)) (hlt : b < 2 ^ 31)
    (h0 : 0 < limit) (hl : limit < 2 ^ 31) (v : Nat) (hv : v < limit) :
    nextIntLoop f limit 1 s = .value v (f s).2 ↔ ∃ q, q < 2 ^ 31 / limit ∧ b = q * limit + v := by
  rw [← share_iff b limit v hlt h0 hl hv]
  unfold nextIntLoop
  simp only
  rw [hb]
  by_cases hc : wrap (wrap ((b : Int) - (b : Int).tmod limit) + ((limit : Int) - 1)) < 0
  · rw [if_pos hc]
    simp [nextIntLoop, hc]
  · rw [if_neg hc]
    simp [hc]

theorem loop_again (f : BitVec 64 → BitVec 32 × BitVec 64) (limit : Int) (s : BitVec 64) (n : Nat) (h : nextIntLoop f limit 1 s = .fuel) :
    nextIntLoop f limit (n + 1) s = nextIntLoop f limit n (f s).2 := by
  unfold nextIntLoop at h
  simp only at h
  by_cases hc : wrap (wrap ((f s).1.toInt - (f s).1.toInt.tmod limit) + (limit - 1)) < 0
  · rw [nextIntLoop]
    rw [if_pos hc]
  · rw [if_neg hc] at h
    cases h

/-- A limit that is no power of two: in one round, `v` is the result for `2^31 / limit` of the 2^31 numbers, for each `v` below the limit. -/
theorem nextInt_share (limit : BitVec 32) (h0 : 0 < limit.toInt) (hp : limit &&& -limit ≠ limit) (s : BitVec 64) (v : Nat) (hv : v < limit.toNat) :
    nextInt 1 limit s = .value v (step s) ↔ ∃ q, q < 2 ^ 31 / limit.toNat ∧ lcg s.toNat / 2 ^ 17 = q * limit.toNat + v := by
  have hl : limit.toInt = limit.toNat ∧ limit.toNat < 2 ^ 31 := by
    have := BitVec.toInt_eq_toNat_cond limit
    have := limit.isLt
    omega
  obtain ⟨hb, hlt⟩ := next31_toInt s
  rw [step_lcg] at hb hlt
  have := loop_one next31 limit.toNat (lcg s.toNat / 2 ^ 17) s hb hlt (by omega) hl.2 v hv
  rw [← this]
  unfold nextInt
  rw [if_neg (by omega), if_neg hp, hl.1]
  exact Iff.rfl

/-- The other numbers are passed over. -/
theorem nextInt_again (limit : BitVec 32) (n : Nat) (s : BitVec 64) (h : nextInt 1 limit s = .fuel) :
    nextInt (n + 1) limit s = nextInt n limit (step s) := by
  unfold nextInt at h ⊢
  by_cases h0 : limit.toInt ≤ 0
  · rw [if_pos h0] at h; cases h
  · rw [if_neg h0] at h ⊢
    rw [if_neg h0]
    by_cases hp : limit &&& -limit = limit
    · rw [if_pos hp] at h; cases h
    · rw [if_neg hp] at h ⊢
      rw [if_neg hp]
      exact loop_again next31 limit.toInt s n h

/-- A limit that is a power of two: the result is made of the highest bits. -/
theorem nextInt_pow (limit : BitVec 32) (h0 : 0 < limit.toInt) (hp : limit &&& -limit = limit) (n : Nat) (s : BitVec 64) :
    nextInt n limit s = .value ((limit.toNat * (lcg s.toNat / 2 ^ 17) / 2 ^ 31 : Nat) : Int) (step s) := by
  have := (pow_branch limit h0 s).1
  rw [step_lcg] at this
  unfold nextInt
  rw [if_neg (by omega), if_pos hp, this]
  rfl

example : nextInt 3 100#32 (setSeed 42#64) = .value 30 (BitVec.ofNat 64 204790973191750) ∧ nextInt 3 64#32 (setSeed 42#64) = .value 46 (BitVec.ofNat 64 204790973191750) := by
  decide +kernel

/-! ## nextDouble and nextBytes -/

/-- `nextDouble` is at least 0 and less than 1. -/
theorem nextDouble_range (s : BitVec 64) : (nextDouble s).1.toNat < 2 ^ 53 ∧
    (nextDouble s).1.toNat = (lcg s.toNat / 2 ^ 22) * 2 ^ 27 + lcg (lcg s.toNat) / 2 ^ 21 := by
  have ha := next_toNat s 26 (by omega)
  have hb := next_toNat (step s) 27 (by omega)
  have e : nextDouble s = (((next s 26).1.signExtend 64 <<< 27) + (next (step s) 27).1.signExtend 64, (next (step s) 27).2) := rfl
  have ham : (next s 26).1.msb = false := by rw [BitVec.msb_eq_decide]; simp; omega
  have hbm : (next (step s) 27).1.msb = false := by rw [BitVec.msb_eq_decide]; simp; omega
  have : (nextDouble s).1.toNat = (next s 26).1.toNat * 2 ^ 27 + (next (step s) 27).1.toNat := by
    rw [e]
    simp only
    rw [BitVec.signExtend_eq_setWidth_of_msb_false ham, BitVec.signExtend_eq_setWidth_of_msb_false hbm, BitVec.toNat_add, BitVec.toNat_shiftLeft,
      BitVec.toNat_setWidth, BitVec.toNat_setWidth, Nat.shiftLeft_eq]
    omega
  rw [this]
  refine ⟨by omega, ?_⟩
  rw [ha.1, hb.1, step_lcg]

theorem fill_length (j : Nat) (r : BitVec 32) : (fill j r).length = j := by
  induction j generalizing r with
  | zero => rfl
  | succ j ih => rw [fill, List.length_cons, ih]

theorem bytesLoop_ok (f : BitVec 64 → BitVec 32 × BitVec 64) (n left : Nat) (s : BitVec 64) (h : left ≤ n) :
    (bytesLoop f n left s).1.length = left ∧ (bytesLoop f n left s).2 = iter (fun x => (f x).2) ((left + 3) / 4) s := by
  induction n generalizing left s with
  | zero =>
    obtain rfl : left = 0 := by omega
    exact ⟨rfl, rfl⟩
  | succ n ih =>
    unfold bytesLoop
    by_cases hz : left = 0
    · subst hz; exact ⟨rfl, rfl⟩
    · rw [if_neg hz]
      have := ih (left - min left 4) (f s).2 (by omega)
      simp only
      constructor
      · rw [List.length_append, fill_length, this.1]
        omega
      · rw [this.2, show (left + 3) / 4 = (left - min left 4 + 3) / 4 + 1 by omega, iter]

theorem fill_get (j i : Nat) (r : BitVec 32) (h : i < j) : (fill j r)[i]? = some ((r.sshiftRight (8 * i)).setWidth 8) := by
  induction j generalizing i r with
  | zero => omega
  | succ j ih =>
    cases i with
    | zero => simp [fill]
    | succ i =>
      rw [fill, List.getElem?_cons_succ, ih i _ (by omega), ← BitVec.sshiftRight_add, show 8 + 8 * i = 8 * (i + 1) by omega]

theorem byte_of (x : BitVec 32) (k : Nat) (h : k + 8 ≤ 32) : (x.sshiftRight k).setWidth 8 = x.extractLsb' k 8 := by
  apply BitVec.eq_of_getLsbD_eq
  intro i hi
  rw [BitVec.getLsbD_setWidth, BitVec.getLsbD_sshiftRight, BitVec.getLsbD_extractLsb', if_pos (by omega)]
  simp [hi, show i < 32 by omega]

theorem bytesLoop_get (f : BitVec 64 → BitVec 32 × BitVec 64) (n left i : Nat) (s : BitVec 64) (h : left ≤ n) (hi : i < left) :
    (bytesLoop f n left s).1[i]? = some ((f (iter (fun x => (f x).2) (i / 4) s)).1.extractLsb' (8 * (i % 4)) 8) := by
  induction n generalizing left i s with
  | zero => omega
  | succ n ih =>
    unfold bytesLoop
    rw [if_neg (by omega)]
    simp only
    by_cases h4 : i < 4
    · rw [List.getElem?_append_left (by rw [fill_length]; omega), fill_get _ _ _ (by omega), byte_of _ _ (by omega),
        show i / 4 = 0 by omega, show i % 4 = i by omega, iter]
    · rw [List.getElem?_append_right (by rw [fill_length]; omega), fill_length, ih _ _ _ (by omega) (by omega),
        show i - min left 4 = i - 4 by omega, show (i - 4) % 4 = i % 4 by omega, show i / 4 = (i - 4) / 4 + 1 by omega, iter]

/-- `nextBytes` fills the whole array, four bytes from each number. -/
theorem nextBytes_ok (length : Nat) (s : BitVec 64) :
    (nextBytes length s).1.length = length ∧ (nextBytes length s).2 = iter step ((length + 3) / 4) s :=
  bytesLoop_ok _ length length s (Nat.le_refl _)

/-- Each byte of `nextBytes` is a byte of one number, the lowest first. -/
theorem nextBytes_get (length i : Nat) (s : BitVec 64) (h : i < length) :
    (nextBytes length s).1[i]? = some ((next (iter step (i / 4) s) 32).1.extractLsb' (8 * (i % 4)) 8) :=
  bytesLoop_get _ length length i s (Nat.le_refl _) h

/-- `nextLong` is made of two numbers, the first the higher half. -/
theorem nextLong_ok (s : BitVec 64) :
    (nextLong s).1 = BitVec.ofInt 64 ((next s 32).1.toInt * 2 ^ 32 + (next (step s) 32).1.toInt) ∧ (nextLong s).2 = step (step s) := by
  have e : nextLong s = (((next s 32).1.signExtend 64 <<< 32) + (next (step s) 32).1.signExtend 64, (next (step s) 32).2) := rfl
  refine ⟨?_, rfl⟩
  rw [e]
  simp only
  generalize (next s 32).1 = a
  generalize (next (step s) 32).1 = b
  apply BitVec.eq_of_toInt_eq
  rw [BitVec.toInt_add, BitVec.toInt_ofInt, BitVec.toInt_shiftLeft, BitVec.toInt_signExtend_of_le (by omega), Nat.shiftLeft_eq]
  have h1 : (BitVec.signExtend 64 a).toNat = (a.toInt % 2 ^ 64).toNat := by
    have := BitVec.toInt_signExtend_of_le (x := a) (v := 64) (by omega)
    have h2 := BitVec.toInt_eq_toNat_bmod (BitVec.signExtend 64 a)
    have h3 := (BitVec.signExtend 64 a).isLt
    have h4 := BitVec.toInt_eq_toNat_cond (BitVec.signExtend 64 a)
    rw [this] at h4
    split at h4 <;> omega
  rw [h1]
  have h5 := BitVec.toInt_lt (x := a)
  have h6 := BitVec.le_toInt (x := a)
  have h7 := BitVec.toInt_lt (x := b)
  have h8 := BitVec.le_toInt (x := b)
  generalize a.toInt = u at *
  generalize b.toInt = v at *
  simp only [Int.bmod_def]
  omega

example : (nextLong (setSeed 42#64)).1.toInt = -5025562857975149833 := by decide +kernel
example : (nextBytes 5 (setSeed 0#64)).1.map BitVec.toInt = [96, -76, 32, -69, 56] := by decide +kernel
example : (nextBytes 5 (setSeed 0#64)).1.length = 5 := (nextBytes_ok 5 _).1

end Avian.JRandom
