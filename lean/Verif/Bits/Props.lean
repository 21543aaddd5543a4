import Verif.Basic
import Mathlib.Data.Nat.Bitwise

/-!
Properties C34, C35: `/repo/src/wafo/bitwise.py`.  Integers are natural numbers without a width limit
(numpy's fixed width and Python's negative integers are not modelled).
-/

namespace Wafo.Bits

/-- `getbit(i, bit)`, bitwise.py L13-33: `bitwise_and(i, 1 << bit) >> bit`. -/
def getbit (i bit : ℕ) : ℕ := (i &&& (1 <<< bit)) >>> bit

/-- `getbits(i, numbits)`, bitwise.py L36-40. -/
def getbits (i numbits : ℕ) : List ℕ := (List.range numbits).map (getbit i)

/-- `setbit(i, bit, value)`, bitwise.py L43-66.  `Nat.ldiff i v` is `i & ~v`. -/
def setbit (i bit value : ℕ) : ℕ :=
  let val1 := 1 <<< bit
  if value = 0 then Nat.ldiff i val1 else i ||| val1

/-- The loop of `setbits(bitlist)`, bitwise.py L69-84, with position `k` and value `val`. -/
def setbitsGo (k val : ℕ) : List ℕ → ℕ
  | [] => val
  | j :: l => setbitsGo (k + 1) (val ||| (j <<< k)) l

/-- `setbits(bitlist)`. -/
def setbits (l : List ℕ) : ℕ := setbitsGo 0 0 l

theorem testBit_shift_one (b k : ℕ) : (1 <<< b).testBit k = decide (b = k) := by
  rw [Nat.shiftLeft_eq, one_mul, Nat.testBit_two_pow]

theorem getbit_eq (i b : ℕ) : getbit i b = (i.testBit b).toNat := by
  apply Nat.eq_of_testBit_eq
  intro k
  unfold getbit
  rw [Nat.testBit_shiftRight, Nat.testBit_and, testBit_shift_one]
  cases k with
  | zero => cases i.testBit b <;> simp
  | succ k => cases h : i.testBit b <;> simp [Nat.testBit_succ]

/-- **C34, range of `getbit`.** -/
theorem C34_getbit_range (i b : ℕ) : getbit i b = 0 ∨ getbit i b = 1 := by
  rw [getbit_eq]; cases i.testBit b <;> simp

/-- `getbit` is the binary digit: `i // 2**b mod 2`. -/
theorem C34_getbit_digit (i b : ℕ) : getbit i b = i / 2 ^ b % 2 := by
  rw [getbit_eq, Nat.testBit_eq_decide_div_mod_eq]
  rcases Nat.mod_two_eq_zero_or_one (i / 2 ^ b) with h | h <;> simp [h]

/-- **C34, setting a bit.**  After `setbit(i, b, v)` with `v` in {0, 1} bit `b` reads `v`. -/
theorem C34_setbit_same (i b v : ℕ) (hv : v ≤ 1) : getbit (setbit i b v) b = v := by
  rw [getbit_eq]
  unfold setbit
  rcases Nat.le_one_iff_eq_zero_or_eq_one.1 hv with rfl | rfl
  · simp [Nat.testBit_ldiff]
  · simp [Nat.testBit_or]

/-- **C34, other bits are untouched.** -/
theorem C34_setbit_other (i b k v : ℕ) (hk : k ≠ b) : getbit (setbit i b v) k = getbit i k := by
  rw [getbit_eq, getbit_eq]
  unfold setbit
  have : ¬ b = k := fun h => hk h.symm
  by_cases hv : v = 0
  · simp only [if_pos hv, Nat.testBit_ldiff, testBit_shift_one, this]; simp
  · simp only [if_neg hv, Nat.testBit_or, testBit_shift_one, this]; simp

/-- Numbers with the same bits are equal, so the two laws above determine `setbit`. -/
theorem getbit_ext {i j : ℕ} (h : ∀ k, getbit i k = getbit j k) : i = j := by
  apply Nat.eq_of_testBit_eq
  intro k
  have := h k
  rw [getbit_eq, getbit_eq] at this
  cases hi : i.testBit k <;> cases hj : j.testBit k <;> simp_all

/-- **C34, own value.**  Setting a bit to the value it has changes nothing. -/
theorem C34_setbit_own (i b : ℕ) : setbit i b (getbit i b) = i := by
  apply getbit_ext
  intro k
  by_cases hk : k = b
  · subst hk
    apply C34_setbit_same
    rcases C34_getbit_range i k with h | h <;> omega
  · exact C34_setbit_other i b k _ hk

example : getbit 13 2 = 1 ∧ setbit 9 4 1 = 25 ∧ setbit 25 4 0 = 9 := by decide +kernel

theorem setbitsGo_testBit : ∀ (l : List ℕ) (k val : ℕ), (∀ b ∈ l, b ≤ 1) → ∀ j,
    (setbitsGo k val l).testBit j
      = (val.testBit j || (decide (k ≤ j) && decide (l[j - k]? = some 1)))
  | [], k, val, _, j => by simp [setbitsGo]
  | b :: l, k, val, h, j => by
      unfold setbitsGo
      rw [setbitsGo_testBit l (k + 1) _ (fun c hc => h c (List.mem_cons_of_mem _ hc)) j,
        Nat.testBit_or, Nat.testBit_shiftLeft, Bool.or_assoc]
      congr 1
      have hb := h b (by simp)
      rcases lt_trichotomy j k with hj | hj | hj
      · have h1 : ¬ k ≤ j := by omega
        have h2 : ¬ k + 1 ≤ j := by omega
        simp [h1, h2]
      · subst hj
        rcases Nat.le_one_iff_eq_zero_or_eq_one.1 hb with rfl | rfl <;> simp
      · have h1 : k ≤ j := by omega
        have h2 : k + 1 ≤ j := by omega
        obtain ⟨m, hm⟩ : ∃ m, j - k = m + 1 := ⟨j - k - 1, by omega⟩
        have h3 : j - (k + 1) = m := by omega
        rw [hm, h3]
        have : b.testBit (m + 1) = false := by
          rcases Nat.le_one_iff_eq_zero_or_eq_one.1 hb with rfl | rfl <;> simp [Nat.testBit_succ]
        simp [this, h1, h2]

theorem setbits_testBit (l : List ℕ) (h : ∀ b ∈ l, b ≤ 1) (j : ℕ) :
    (setbits l).testBit j = decide (l[j]? = some 1) := by
  unfold setbits
  rw [setbitsGo_testBit l 0 0 h]
  simp

/-- **C35, round trip from numbers.**  `setbits(getbits(i, n)) == i mod 2**n` for all `i`, `n`. -/
theorem C35_set_get (i n : ℕ) : setbits (getbits i n) = i % 2 ^ n := by
  apply Nat.eq_of_testBit_eq
  intro j
  rw [setbits_testBit, Nat.testBit_mod_two_pow]
  · unfold getbits
    rw [List.getElem?_map]
    by_cases hj : j < n
    · rw [List.getElem?_range hj, Option.map_some, getbit_eq]
      cases i.testBit j <;> simp [hj]
    · rw [List.getElem?_eq_none (by simpa using hj)]
      simp [hj]
  · intro b hb
    unfold getbits at hb
    rw [List.mem_map] at hb
    obtain ⟨k, _, rfl⟩ := hb
    rcases C34_getbit_range i k with h | h <;> omega

/-- **C35, round trip from bit lists.**  `getbits(setbits(l), len(l)) == l` for every list of bits. -/
theorem C35_get_set (l : List ℕ) (h : ∀ b ∈ l, b ≤ 1) : getbits (setbits l) l.length = l := by
  apply List.ext_getElem?
  intro k
  unfold getbits
  rw [List.getElem?_map]
  by_cases hk : k < l.length
  · rw [List.getElem?_range hk, Option.map_some, getbit_eq, setbits_testBit l h,
      List.getElem?_eq_getElem hk]
    rcases Nat.le_one_iff_eq_zero_or_eq_one.1 (h l[k] (List.getElem_mem hk)) with h1 | h1 <;>
      simp [h1]
  · rw [List.getElem?_eq_none (by simpa using hk), List.getElem?_eq_none (by omega)]
    rfl

example : setbits (getbits 77 5) = 13 ∧ getbits (setbits [1, 0, 1, 1]) 4 = [1, 0, 1, 1] := by decide

end Wafo.Bits
