import Verif.Lemmas.Int256Div
/-!
# Property C11: `uint256` is arithmetic modulo `2^256`

`U256.val` is the specification: the number `hi·2^128 + lo`.  `U256.WF` says that both members are
128-bit words, which is what the C++ types guarantee; every operation is shown to preserve it.
-/

namespace Shell
open U256

/-- Every number below `2^256` is the value of exactly one well-formed object, so the theorems below
determine the results completely. -/
theorem c11_values :
    (∀ n < 2 ^ 256, ∃ a, WF a ∧ a.val = n) ∧
    (∀ a b, WF a → WF b → a.val = b.val → a = b) ∧ (∀ a, WF a → a.val < 2 ^ 256) := by
  refine ⟨fun n hn => ⟨⟨n / 2 ^ 128, n % 2 ^ 128⟩, ⟨?_, ?_⟩, ?_⟩, fun a b ha hb h => ?_,
    fun a ha => val_lt ha⟩
  · simp only; omega
  · simp only; omega
  · simp only [val]; omega
  · obtain ⟨a1, a2⟩ := a; obtain ⟨b1, b2⟩ := b
    obtain ⟨h1, h2⟩ := ha; obtain ⟨h3, h4⟩ := hb
    simp only [val] at h h1 h2 h3 h4
    rw [U256.mk.injEq]
    omega

/-- C11, construction and conversion. -/
theorem c11_construct :
    (∀ top bottom, top < 2 ^ 128 → bottom < 2 ^ 128 →
      WF (ofPair top bottom) ∧ (ofPair top bottom).val = top * 2 ^ 128 + bottom) ∧
    (∀ x : ℤ, -2 ^ 31 ≤ x → x < 2 ^ 31 → WF (ofInt x) ∧ ((ofInt x).val : ℤ) = x % 2 ^ 256) ∧
    (∀ a, WF a → ∀ w ≤ 128, toWord w a = a.val % 2 ^ w) ∧
    (∀ a, WF a → (U256.toBool a = true ↔ a.val ≠ 0)) ∧
    U256.max.val = 2 ^ 256 - 1 := by
  refine ⟨fun t b h1 h2 => ⟨⟨h1, h2⟩, rfl⟩, fun x h1 h2 => ?_, fun a ha w hw => ?_, fun a ha => ?_, ?_⟩
  · unfold ofInt
    split_ifs with h
    · refine ⟨⟨trunc_lt 128 (-1), trunc_lt 128 x⟩, ?_⟩
      simp only [val]; push_cast; rw [trunc128, trunc128]; omega
    · refine ⟨⟨by norm_num, trunc_lt 128 _⟩, ?_⟩
      simp only [val]; push_cast; rw [trunc128]; omega
  · unfold toWord val
    have : a.hi * 2 ^ 128 = 2 ^ w * (a.hi * 2 ^ (128 - w)) := by
      rw [mul_left_comm, ← pow_add]; congr 2; omega
    rw [this, Nat.mul_add_mod]
  · unfold U256.toBool val; simp; omega
  · simp only [U256.max, val, B]; norm_num

/-- C11, comparisons and logical negation. -/
theorem c11_compare (a b : U256) (ha : WF a) (hb : WF b) :
    (eq a b = true ↔ a.val = b.val) ∧ (lt a b = true ↔ a.val < b.val) ∧
    (gt a b = true ↔ a.val > b.val) ∧ (le a b = true ↔ a.val ≤ b.val) ∧
    (ge a b = true ↔ a.val ≥ b.val) ∧ (lnot a = true ↔ a.val = 0) := by
  refine ⟨eq_iff ha hb, lt_iff ha hb, gt_iff ha hb, le_iff ha hb, ge_iff ha hb, ?_⟩
  unfold lnot val; simp

/-- C11, addition, subtraction, multiplication, negation, increment and decrement modulo `2^256`. -/
theorem c11_arith (a b : U256) (ha : WF a) (hb : WF b) :
    (WF (add a b) ∧ (add a b).val = (a.val + b.val) % 2 ^ 256) ∧
    (WF (sub a b) ∧ ((sub a b).val : ℤ) = ((a.val : ℤ) - b.val) % 2 ^ 256) ∧
    (WF (mul a b) ∧ (mul a b).val = a.val * b.val % 2 ^ 256) ∧
    (WF (neg a) ∧ ((neg a).val : ℤ) = -(a.val : ℤ) % 2 ^ 256) ∧
    (WF (inc a) ∧ (inc a).val = (a.val + 1) % 2 ^ 256) ∧
    (WF (dec a) ∧ ((dec a).val : ℤ) = ((a.val : ℤ) - 1) % 2 ^ 256) :=
  ⟨add_spec ha hb, sub_spec ha hb, mul_spec ha hb, neg_spec ha, inc_spec ha, dec_spec ha⟩

/-- C11, bitwise operators, bit by bit. -/
theorem c11_bitwise (a b : U256) (ha : WF a) (hb : WF b) (i : ℕ) :
    (WF (or a b) ∧ (or a b).val.testBit i = (a.val.testBit i || b.val.testBit i)) ∧
    (WF (and a b) ∧ (and a b).val.testBit i = (a.val.testBit i && b.val.testBit i)) ∧
    (WF (xor a b) ∧ (xor a b).val.testBit i = Bool.xor (a.val.testBit i) (b.val.testBit i)) ∧
    (WF (compl a) ∧ (compl a).val = 2 ^ 256 - 1 - a.val) := by
  refine ⟨⟨(or_spec ha hb).1, ?_⟩, ⟨(and_spec ha hb).1, ?_⟩, ⟨(xor_spec ha hb).1, ?_⟩, compl_spec ha⟩
  · rw [(or_spec ha hb).2, Nat.testBit_or]
  · rw [(and_spec ha hb).2, Nat.testBit_and]
  · rw [(xor_spec ha hb).2, Nat.testBit_xor]

/-- C11, shifts: every non-negative amount, including amounts of 256 and more, is a multiplication or
division by a power of two; every negative amount is undefined behaviour. -/
theorem c11_shift (a : U256) (ha : WF a) :
    (∀ n : ℕ, ∃ r, shl a n = .ok r ∧ WF r ∧ r.val = a.val * 2 ^ n % 2 ^ 256) ∧
    (∀ n : ℕ, ∃ r, shr a n = .ok r ∧ WF r ∧ r.val = a.val / 2 ^ n) ∧
    (∀ n : ℤ, n < 0 → shl a n = .ub .badShift ∧ shr a n = .ub .badShift) := by
  refine ⟨fun n => shl_spec ha n, fun n => shr_spec ha n, fun n hn => ?_⟩
  simp [shl, shr, hn]

/-- C11, division: exact quotient and remainder for every non-zero divisor, process termination for
the zero divisor. -/
theorem c11_div (a b : U256) (ha : WF a) (hb : WF b) :
    (b.val ≠ 0 → ∃ q r, div a b = .ok q ∧ mod a b = .ok r ∧ WF q ∧ WF r ∧
      a.val = q.val * b.val + r.val ∧ r.val < b.val) ∧
    (b.val = 0 → div a b = .ub .fatal ∧ mod a b = .ub .fatal) := by
  constructor
  · intro h0
    obtain ⟨q, r, h, wq, wr, hq, hr⟩ := divMod_spec ha hb h0
    refine ⟨q, r, by simp [div, h], by simp [mod, h], wq, wr, ?_, ?_⟩
    · rw [hq, hr, mul_comm]; exact (Nat.div_add_mod _ _).symm
    · rw [hr]; exact Nat.mod_lt _ (Nat.pos_of_ne_zero h0)
  · intro h0
    have h00 : WF (⟨0, 0⟩ : U256) := ⟨by norm_num, by norm_num⟩
    have : eq b ⟨0, 0⟩ = true := by
      rw [eq_iff hb h00, h0]; simp only [val, zero_mul, zero_add]
    simp [div, mod, divMod, this]

example : WF (⟨2 ^ 127, 12345⟩ : U256) ∧ WF (⟨0, 2 ^ 64 + 7⟩ : U256) := by
  refine ⟨⟨?_, ?_⟩, ⟨?_, ?_⟩⟩ <;> norm_num
example : div ⟨5, 3⟩ ⟨0, 2⟩ = .ok ⟨2, 2 ^ 127 + 1⟩ := by decide +kernel
example : mul ⟨0, 2 ^ 127⟩ ⟨0, 2 ^ 127 + 2⟩ = ⟨2 ^ 126 + 1, 0⟩ := by decide +kernel

end Shell
