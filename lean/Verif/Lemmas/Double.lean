import Verif.Spec.Double
import Verif.Lemmas.Weights
import Mathlib.Tactic.Linarith
import Mathlib.Tactic.Positivity
import Mathlib.Tactic.NormNum

/-! Rounding errors of sums, normalisation and effective sample size (for C122-C124). -/

namespace Poco
open F Spec

/-- The unit roundoff. -/
@[irreducible] noncomputable def uu : ℝ := 2⁻¹ ^ 53
/-- Half the smallest subnormal number. -/
@[irreducible] noncomputable def eta : ℝ := 2⁻¹ ^ 1075

theorem uu_pos : 0 < uu := by unfold uu; positivity
theorem eta_pos : 0 < eta := by unfold eta; positivity

theorem Spec.Added.nonneg {r : ℝ → ℝ} (hm : Monotone r) (h0 : r 0 = 0) {l : List ℝ} {s : ℝ} (h : Added r l s) :
    (∀ x ∈ l, 0 ≤ x) → 0 ≤ s := by
  induction h with
  | nil => intro _; exact le_rfl
  | one x => intro h; exact h x (by simp)
  | @add l l₁ l₂ a b h1 h2 ha hb hp iha ihb =>
    intro hl
    have e1 := iha fun x hx => hl x (hp.mem_iff.mpr (List.mem_append_left _ hx))
    have e2 := ihb fun x hx => hl x (hp.mem_iff.mpr (List.mem_append_right _ hx))
    calc (0 : ℝ) = r 0 := h0.symm
      _ ≤ r (a + b) := hm (by linarith)

/-- A sum of non-negative doubles, whatever the order, is at least each of them. -/
theorem Spec.Added.ge_mem {r : ℝ → ℝ} (hm : Monotone r) (h0 : r 0 = 0) (hi : ∀ x, r (r x) = r x) {l : List ℝ} {s : ℝ} (h : Added r l s) :
    (∀ x ∈ l, 0 ≤ x ∧ r x = x) → r s = s ∧ ∀ x ∈ l, x ≤ s := by
  induction h with
  | nil => intro _; exact ⟨h0, by simp⟩
  | one x => intro h; exact ⟨(h x (by simp)).2, by simp⟩
  | @add l l₁ l₂ a b h1 h2 ha hb hp iha ihb =>
    intro hl
    have hl1 : ∀ x ∈ l₁, 0 ≤ x ∧ r x = x := fun x hx => hl x (hp.mem_iff.mpr (List.mem_append_left _ hx))
    have hl2 : ∀ x ∈ l₂, 0 ≤ x ∧ r x = x := fun x hx => hl x (hp.mem_iff.mpr (List.mem_append_right _ hx))
    obtain ⟨ea, ma⟩ := iha hl1
    obtain ⟨eb, mb⟩ := ihb hl2
    have na := ha.nonneg hm h0 fun x hx => (hl1 x hx).1
    have nb := hb.nonneg hm h0 fun x hx => (hl2 x hx).1
    refine ⟨hi _, fun x hx => ?_⟩
    rcases List.mem_append.mp (hp.mem_iff.mp hx) with h | h
    · calc x ≤ a := ma x h
        _ = r a := ea.symm
        _ ≤ r (a + b) := hm (by linarith)
    · calc x ≤ b := mb x h
        _ = r b := eb.symm
        _ ≤ r (a + b) := hm (by linarith)

/-- A sum of numbers up to one, whatever the order, is at most their number. -/
theorem Spec.Added.le_length {r : ℝ → ℝ} (hm : Monotone r) (hn : ∀ k : ℕ, k ≤ 2 ^ 53 → r k = k) {l : List ℝ} {s : ℝ} (h : Added r l s) :
    (∀ x ∈ l, x ≤ 1) → l.length ≤ 2 ^ 53 → s ≤ l.length := by
  induction h with
  | nil => intro _ _; simp
  | one x => intro h _; simpa using h x (by simp)
  | @add l l₁ l₂ a b h1 h2 ha hb hp iha ihb =>
    intro hl hN
    have hlen : l.length = l₁.length + l₂.length := by rw [hp.length_eq, List.length_append]
    have e1 := iha (fun x hx => hl x (hp.mem_iff.mpr (List.mem_append_left _ hx))) (by omega)
    have e2 := ihb (fun x hx => hl x (hp.mem_iff.mpr (List.mem_append_right _ hx))) (by omega)
    calc r (a + b) ≤ r ((l.length : ℕ) : ℝ) := hm (by rw [hlen]; push_cast; linarith)
      _ = l.length := hn _ hN

/-- The rounding error of a sum of non-negative numbers, whatever the order. -/
theorem Spec.Added.err {r : ℝ → ℝ} (hm : Monotone r) (h0 : r 0 = 0) (hr : ∀ x, |r x - x| ≤ uu * |x| + eta) {l : List ℝ} {s : ℝ} (h : Added r l s) :
    l ≠ [] → (∀ x ∈ l, 0 ≤ x) → 2 * (l.length : ℝ) * uu ≤ 1 → |s - l.sum| ≤ ((l.length : ℝ) - 1) * (2 * uu * l.sum + 2 * eta) := by
  have hu := uu_pos
  have he := eta_pos
  induction h with
  | nil => intro h; exact absurd rfl h
  | one x => intro _ _ _; simp
  | @add l l₁ l₂ a b h1 h2 ha hb hp iha ihb =>
    intro _ hl hN
    have hl1 : ∀ x ∈ l₁, 0 ≤ x := fun x hx => hl x (hp.mem_iff.mpr (List.mem_append_left _ hx))
    have hl2 : ∀ x ∈ l₂, 0 ≤ x := fun x hx => hl x (hp.mem_iff.mpr (List.mem_append_right _ hx))
    have hlen : (l.length : ℝ) = l₁.length + l₂.length := by rw [hp.length_eq, List.length_append]; push_cast; ring
    have hsum : l.sum = l₁.sum + l₂.sum := by rw [hp.sum_eq, List.sum_append]
    have c1 : (1 : ℝ) ≤ l₁.length := by exact_mod_cast List.length_pos_iff.mpr h1
    have c2 : (1 : ℝ) ≤ l₂.length := by exact_mod_cast List.length_pos_iff.mpr h2
    have s1 : 0 ≤ l₁.sum := List.sum_nonneg hl1
    have s2 : 0 ≤ l₂.sum := List.sum_nonneg hl2
    have e1 := iha h1 hl1 (by nlinarith)
    have e2 := ihb h2 hl2 (by nlinarith)
    have na := ha.nonneg hm h0 hl1
    have nb := hb.nonneg hm h0 hl2
    have er := hr (a + b)
    rw [abs_of_nonneg (by linarith : 0 ≤ a + b)] at er
    set n₁ : ℝ := (l₁.length : ℝ)
    set n₂ : ℝ := (l₂.length : ℝ)
    set p := 2 * uu * l.sum + 2 * eta with hpd
    have p1 : 2 * uu * l₁.sum + 2 * eta ≤ p := by rw [hpd, hsum]; nlinarith
    have p2 : 2 * uu * l₂.sum + 2 * eta ≤ p := by rw [hpd, hsum]; nlinarith
    have q1 : |a - l₁.sum| ≤ (n₁ - 1) * p := e1.trans (mul_le_mul_of_nonneg_left p1 (by linarith))
    have q2 : |b - l₂.sum| ≤ (n₂ - 1) * p := e2.trans (mul_le_mul_of_nonneg_left p2 (by linarith))
    have hab : |(a + b) - l.sum| ≤ (n₁ + n₂ - 2) * p := by
      rw [hsum]
      calc |a + b - (l₁.sum + l₂.sum)| = |(a - l₁.sum) + (b - l₂.sum)| := by ring_nf
        _ ≤ |a - l₁.sum| + |b - l₂.sum| := abs_add_le _ _
        _ ≤ _ := by linarith
    have hab' : a + b ≤ l.sum + (n₁ + n₂ - 2) * p := by linarith [(abs_le.mp hab).2]
    have hsn : 0 ≤ l.sum := by rw [hsum]; linarith
    have hp0 : 0 ≤ p := by rw [hpd]; positivity
    have key : uu * (a + b) + eta ≤ p := by
      have h3 : uu * (a + b) ≤ uu * l.sum + uu * (n₁ + n₂ - 2) * p := by
        calc uu * (a + b) ≤ uu * (l.sum + (n₁ + n₂ - 2) * p) := mul_le_mul_of_nonneg_left hab' hu.le
          _ = _ := by ring
      have h4 : uu * (n₁ + n₂ - 2) ≤ 1 / 2 := by rw [hlen] at hN; nlinarith
      have h5 : uu * (n₁ + n₂ - 2) * p ≤ 1 / 2 * p := mul_le_mul_of_nonneg_right h4 hp0
      have h6 : uu * l.sum + eta = p / 2 := by rw [hpd]; ring
      linarith
    calc |r (a + b) - l.sum| = |(r (a + b) - (a + b)) + ((a + b) - l.sum)| := by ring_nf
      _ ≤ |r (a + b) - (a + b)| + |(a + b) - l.sum| := abs_add_le _ _
      _ ≤ p + (n₁ + n₂ - 2) * p := by linarith
      _ = ((l.length : ℝ) - 1) * p := by rw [hlen]; ring

/-- `v` is `p` up to the relative error `a` and the absolute error `b`, entry by entry. -/
def Close (a b : ℝ) (v p : List ℝ) : Prop := List.Forall₂ (fun x y => |x - y| ≤ a * y + b) v p

theorem Close.sum {a b : ℝ} {v p : List ℝ} (h : Close a b v p) : |v.sum - p.sum| ≤ a * p.sum + p.length * b := by
  induction h with
  | nil => simp
  | @cons x y v p hxy _ ih =>
    simp only [List.sum_cons, List.length_cons, Nat.cast_add, Nat.cast_one]
    calc |x + v.sum - (y + p.sum)| = |(x - y) + (v.sum - p.sum)| := by ring_nf
      _ ≤ |x - y| + |v.sum - p.sum| := abs_add_le _ _
      _ ≤ _ := by linarith

theorem Close.map {a b a' b' : ℝ} {v p : List ℝ} (h : Close a b v p) (f g : ℝ → ℝ)
    (hf : ∀ x, ∀ y ∈ p, |x - y| ≤ a * y + b → |f x - g y| ≤ a' * g y + b') : Close a' b' (v.map f) (p.map g) := by
  induction h with
  | nil => exact List.Forall₂.nil
  | @cons x y v p hxy _ ih =>
    exact List.Forall₂.cons (hf x y (by simp) hxy) (ih fun x' y' hy' => hf x' y' (by simp [hy']))

theorem Close.of_map {a b : ℝ} (l : List ℝ) (f g : ℝ → ℝ) (h : ∀ x ∈ l, |f x - g x| ≤ a * g x + b) : Close a b (l.map f) (l.map g) := by
  induction l with
  | nil => exact List.Forall₂.nil
  | cons x l ih => exact List.Forall₂.cons (h x (by simp)) (ih fun y hy => h y (by simp [hy]))

/-- Squares of numbers in `[0, 1]`. -/
theorem sq_close {a b x y : ℝ} (ha : 0 ≤ a) (ha1 : a ≤ 1 / 2) (hb : 0 ≤ b) (hb1 : b ≤ 1) (hy : 0 ≤ y) (hy1 : y ≤ 1)
    (h : |x - y| ≤ a * y + b) : |x ^ 2 - y ^ 2| ≤ 3 * a * y ^ 2 + 4 * b := by
  have h1 : |x + y| ≤ 2 * y + (a * y + b) := by
    calc |x + y| = |(x - y) + 2 * y| := by ring_nf
      _ ≤ |x - y| + |2 * y| := abs_add_le _ _
      _ ≤ _ := by rw [abs_of_nonneg (by linarith : (0 : ℝ) ≤ 2 * y)]; linarith
  have h2 : 0 ≤ a * y + b := by positivity
  calc |x ^ 2 - y ^ 2| = |x - y| * |x + y| := by rw [← abs_mul]; ring_nf
    _ ≤ (a * y + b) * (2 * y + (a * y + b)) := mul_le_mul h h1 (abs_nonneg _) h2
    _ = a * y ^ 2 * (2 + a) + b * (y * (2 + 2 * a)) + b * b := by ring
    _ ≤ a * y ^ 2 * 3 + b * 3 + b * 1 := by
        have t1 : a * y ^ 2 * (2 + a) ≤ a * y ^ 2 * 3 := mul_le_mul_of_nonneg_left (by linarith) (by positivity)
        have t2 : y * (2 + 2 * a) ≤ 1 * 3 := mul_le_mul hy1 (by linarith) (by positivity) (by norm_num)
        have t3 : b * (y * (2 + 2 * a)) ≤ b * 3 := mul_le_mul_of_nonneg_left (by linarith) hb
        have t4 : b * b ≤ b * 1 := mul_le_mul_of_nonneg_left hb1 hb
        linarith
    _ = _ := by ring

variable {A : Arith}

theorem Spec.IsDouble.zero (h : IsDouble A) : A.rnd 0 = 0 := by simpa using h.nat 0 (by norm_num)
theorem Spec.IsDouble.one (h : IsDouble A) : A.rnd 1 = 1 := by simpa using h.nat 1 (by norm_num)
theorem Spec.IsDouble.err (h : IsDouble A) (x : ℝ) : |A.rnd x - x| ≤ uu * |x| + eta := by unfold uu eta; exact h.near x
theorem Spec.IsDouble.nonneg (h : IsDouble A) {x : ℝ} (hx : 0 ≤ x) : 0 ≤ A.rnd x := by
  rw [← h.zero]; exact h.mono hx
theorem Spec.IsDouble.le_one (h : IsDouble A) {x : ℝ} (hx : x ≤ 1) : A.rnd x ≤ 1 := by
  rw [← h.one]; exact h.mono hx

/-- Weights a computation can handle: non-negative, not absurdly small in total, not more than `2^40` of them. -/
structure Usable (w : List ℝ) : Prop where
  nonneg : ∀ x ∈ w, 0 ≤ x
  big : 2⁻¹ ^ 200 ≤ w.sum
  few : w.length ≤ 2 ^ 40

theorem Usable.pos {w : List ℝ} (h : Usable w) : 0 < w.sum := lt_of_lt_of_le (by positivity) h.big
theorem Usable.isWeights {w : List ℝ} (h : Usable w) : IsWeights w := ⟨h.nonneg, h.pos⟩
theorem Usable.ne_nil {w : List ℝ} (h : Usable w) : w ≠ [] := h.isWeights.ne_nil
theorem Usable.one_le {w : List ℝ} (h : Usable w) : (1 : ℝ) ≤ w.length := by exact_mod_cast List.length_pos_iff.mpr h.ne_nil
theorem Usable.few' {w : List ℝ} (h : Usable w) : (w.length : ℝ) ≤ 2 ^ 40 := by exact_mod_cast h.few

theorem eta_le_uu {x : ℝ} (h : 2⁻¹ ^ 400 ≤ x) : eta ≤ uu * 2⁻¹ ^ 500 * x := by
  have : eta ≤ uu * 2⁻¹ ^ 500 * 2⁻¹ ^ 400 := by
    unfold eta uu
    rw [← pow_add, ← pow_add]
    exact pow_le_pow_of_le_one (by norm_num) (by norm_num) (by norm_num)
  exact this.trans (mul_le_mul_of_nonneg_left h (by have := uu_pos; positivity))

/-- The relative error of a computed sum. -/
theorem sum_close (hA : IsDouble A) {w : List ℝ} (h : Usable w) {s : ℝ} (hs : Added A.rnd w s) : |s - w.sum| ≤ w.length * 2⁻¹ ^ 51 * w.sum := by
  have hu := uu_pos
  have hn := h.one_le
  have hf := h.few'
  have hN : 2 * (w.length : ℝ) * uu ≤ 1 := by
    have : (w.length : ℝ) * uu ≤ 2 ^ 40 * uu := mul_le_mul_of_nonneg_right hf hu.le
    have h2 : (2 : ℝ) ^ 40 * uu ≤ 1 / 2 := by unfold uu; norm_num
    linarith
  have he := hs.err hA.mono hA.zero hA.err h.ne_nil h.nonneg hN
  have h3 : eta ≤ uu * w.sum := by
    have := eta_le_uu (x := w.sum) ((pow_le_pow_of_le_one (by norm_num) (by norm_num) (by norm_num : 200 ≤ 400)).trans h.big)
    have h4 : uu * 2⁻¹ ^ 500 * w.sum ≤ uu * 1 * w.sum :=
      mul_le_mul_of_nonneg_right (mul_le_mul_of_nonneg_left (pow_le_one₀ (by norm_num) (by norm_num)) hu.le) h.pos.le
    linarith
  have h5 : 2 * uu * w.sum + 2 * eta ≤ 4 * uu * w.sum := by linarith
  have h6 : 0 ≤ 4 * uu * w.sum := by have := h.pos; positivity
  calc |s - w.sum| ≤ ((w.length : ℝ) - 1) * (2 * uu * w.sum + 2 * eta) := he
    _ ≤ ((w.length : ℝ) - 1) * (4 * uu * w.sum) := mul_le_mul_of_nonneg_left h5 (by linarith)
    _ ≤ (w.length : ℝ) * (4 * uu * w.sum) := mul_le_mul_of_nonneg_right (by linarith) h6
    _ = w.length * 2⁻¹ ^ 51 * w.sum := by unfold uu; ring

/-- A quotient by a number with a relative error. -/
theorem div_close {x s t e : ℝ} (hx : 0 ≤ x) (ht : 0 < t) (he : 0 ≤ e) (he1 : e ≤ 1 / 4) (h : |s - t| ≤ e * t) : |x / s - x / t| ≤ (e + 2 * e ^ 2) * (x / t) := by
  have h1 := abs_le.mp h
  have hs : (1 - e) * t ≤ s := by linarith
  have hs0 : 0 < s := lt_of_lt_of_le (by have : 0 < 1 - e := by linarith
                                         positivity) hs
  have h2 : x / s - x / t = x / t * ((t - s) / s) := by field_simp
  rw [h2, abs_mul, abs_of_nonneg (by positivity : 0 ≤ x / t), mul_comm]
  apply mul_le_mul_of_nonneg_right _ (by positivity)
  rw [abs_div, abs_of_pos hs0, div_le_iff₀ hs0, abs_sub_comm]
  calc |s - t| ≤ e * t := h
    _ ≤ (e + 2 * e ^ 2) * ((1 - e) * t) := by
        have : e ≤ (e + 2 * e ^ 2) * (1 - e) := by nlinarith [mul_nonneg he he, mul_nonneg (mul_nonneg he he) (by linarith : 0 ≤ 1 - 2 * e)]
        calc e * t ≤ (e + 2 * e ^ 2) * (1 - e) * t := mul_le_mul_of_nonneg_right this ht.le
          _ = _ := by ring
    _ ≤ _ := mul_le_mul_of_nonneg_left hs (by positivity)

/-- The computed normalised weights are the exact ones up to rounding. -/
theorem normal_close (hA : IsDouble A) {w : List ℝ} (h : Usable w) {s : ℝ} (hs : |s - w.sum| ≤ w.length * 2⁻¹ ^ 51 * w.sum) :
    Close (w.length * 2⁻¹ ^ 50) eta (w.map fun x => A.rnd (x / s)) (w.map fun x => x / w.sum) := by
  have hu := uu_pos
  have hn := h.one_le
  have hf := h.few'
  set n : ℝ := (w.length : ℝ)
  set e : ℝ := n * 2⁻¹ ^ 51 with he
  have he0 : 0 ≤ e := by positivity
  have he1 : e ≤ 2⁻¹ ^ 11 := by
    calc e ≤ 2 ^ 40 * 2⁻¹ ^ 51 := mul_le_mul_of_nonneg_right hf (by positivity)
      _ = 2⁻¹ ^ 11 := by norm_num
  apply Close.of_map
  intro x hx
  have hx0 := h.nonneg x hx
  have hp0 : 0 ≤ x / w.sum := div_nonneg hx0 h.pos.le
  have h1 := div_close hx0 h.pos he0 (he1.trans (by norm_num)) hs
  have h2 := hA.err (x / s)
  have h3 : |x / s| ≤ 2 * (x / w.sum) := by
    have h4 : |x / s| ≤ |x / s - x / w.sum| + |x / w.sum| := by
      calc |x / s| = |(x / s - x / w.sum) + x / w.sum| := by ring_nf
        _ ≤ _ := abs_add_le _ _
    rw [abs_of_nonneg hp0] at h4
    have h5 : (e + 2 * e ^ 2) ≤ 1 := by nlinarith [he1.trans (by norm_num : (2⁻¹ ^ 11 : ℝ) ≤ 1 / 4)]
    have h6 := mul_le_mul_of_nonneg_right h5 hp0
    linarith
  calc |A.rnd (x / s) - x / w.sum| = |(A.rnd (x / s) - x / s) + (x / s - x / w.sum)| := by ring_nf
    _ ≤ |A.rnd (x / s) - x / s| + |x / s - x / w.sum| := abs_add_le _ _
    _ ≤ (uu * (2 * (x / w.sum)) + eta) + (e + 2 * e ^ 2) * (x / w.sum) := by
        have := mul_le_mul_of_nonneg_left h3 hu.le
        linarith
    _ = (2 * uu + e + 2 * e ^ 2) * (x / w.sum) + eta := by ring
    _ ≤ n * 2⁻¹ ^ 50 * (x / w.sum) + eta := by
        have h7 : 2 * uu + e + 2 * e ^ 2 ≤ n * 2⁻¹ ^ 50 := by
          have h8 : 2 * uu ≤ e / 2 := by
            have : (1 : ℝ) * 2⁻¹ ^ 51 ≤ e := mul_le_mul_of_nonneg_right hn (by positivity)
            have h9 : 2 * uu = 1 * 2⁻¹ ^ 51 / 2 := by unfold uu; norm_num
            linarith
          have h10 : 2 * e ^ 2 ≤ e / 2 := by nlinarith [he1.trans (by norm_num : (2⁻¹ ^ 11 : ℝ) ≤ 1 / 4)]
          have h11 : n * 2⁻¹ ^ 50 = 2 * e := by rw [he]; ring
          linarith
        have := mul_le_mul_of_nonneg_right h7 hp0
        linarith


/-- Exact probabilities: non-negative, sum one. -/
structure Probs (p : List ℝ) : Prop where
  nonneg : ∀ x ∈ p, 0 ≤ x
  sum : p.sum = 1
  few : p.length ≤ 2 ^ 40

theorem Usable.probs {w : List ℝ} (h : Usable w) : Probs (w.map fun x => x / w.sum) where
  nonneg x hx := by
    obtain ⟨y, hy, rfl⟩ := List.mem_map.mp hx
    exact div_nonneg (h.nonneg y hy) h.pos.le
  sum := sum_normalized h.pos.ne'
  few := by rw [List.length_map]; exact h.few

theorem Probs.ne_nil {p : List ℝ} (h : Probs p) : p ≠ [] := by
  rintro rfl
  have := h.sum
  simp at this

theorem Probs.one_le {p : List ℝ} (h : Probs p) : (1 : ℝ) ≤ p.length := by exact_mod_cast List.length_pos_iff.mpr h.ne_nil
theorem Probs.few' {p : List ℝ} (h : Probs p) : (p.length : ℝ) ≤ 2 ^ 40 := by exact_mod_cast h.few
theorem Probs.le_one {p : List ℝ} (h : Probs p) {x : ℝ} (hx : x ∈ p) : x ≤ 1 := by
  rw [← h.sum]; exact List.single_le_sum h.nonneg x hx
theorem Probs.sumsq {p : List ℝ} (h : Probs p) : 2⁻¹ ^ 40 ≤ (p.map (· ^ 2)).sum := by
  have h1 := list_sq_sum_le p
  rw [h.sum] at h1
  have h2 := h.few'
  have h3 := list_sum_sq_nonneg p
  have h4 := mul_le_mul_of_nonneg_right h2 h3
  have h5 : (2⁻¹ : ℝ) ^ 40 * 2 ^ 40 = 1 := by norm_num
  nlinarith

/-- A chain of two relative errors. -/
theorem rel_chain {x y z a b : ℝ} (hz : 0 ≤ z) (ha : 0 ≤ a) (h1 : |y - z| ≤ a * z) (h2 : |x - y| ≤ b * |y|) (hb : 0 ≤ b) :
    |x - z| ≤ (a + b + a * b) * z := by
  have h3 : |y| ≤ (1 + a) * z := by
    calc |y| = |(y - z) + z| := by ring_nf
      _ ≤ |y - z| + |z| := abs_add_le _ _
      _ ≤ _ := by rw [abs_of_nonneg hz]; linarith
  calc |x - z| = |(x - y) + (y - z)| := by ring_nf
    _ ≤ |x - y| + |y - z| := abs_add_le _ _
    _ ≤ b * ((1 + a) * z) + a * z := by
        have := mul_le_mul_of_nonneg_left h3 hb
        linarith
    _ = _ := by ring

/-- The sum of the squares of computed weights, before the additions are rounded. -/
theorem sumsq_close (hA : IsDouble A) {v p : List ℝ} (h : Probs p) (hc : Close (p.length * 2⁻¹ ^ 50) eta v p) :
    |(v.map fun x => A.rnd (x ^ 2)).sum - (p.map (· ^ 2)).sum| ≤ p.length * 2⁻¹ ^ 48 * (p.map (· ^ 2)).sum := by
  have hu := uu_pos
  have he := eta_pos
  have hn := h.one_le
  have hf := h.few'
  have hQ := h.sumsq
  set n : ℝ := (p.length : ℝ) with hnd
  set a : ℝ := n * 2⁻¹ ^ 50 with ha
  have ha0 : 0 ≤ a := by positivity
  have ha1 : a ≤ 2⁻¹ ^ 10 := by
    calc a ≤ 2 ^ 40 * 2⁻¹ ^ 50 := mul_le_mul_of_nonneg_right hf (by positivity)
      _ = 2⁻¹ ^ 10 := by norm_num
  have ha2 : a ≤ 1 / 4 := ha1.trans (by norm_num)
  have hu1 : uu ≤ 1 / 4 := by unfold uu; norm_num
  have he1 : eta ≤ 1 := by unfold eta; exact pow_le_one₀ (by norm_num) (by norm_num)
  have key : Close (3 * a + 2 * uu) (6 * eta) (v.map fun x => A.rnd (x ^ 2)) (p.map (· ^ 2)) := by
    apply hc.map
    intro x y hy hxy
    have h1 := sq_close ha0 (ha2.trans (by norm_num)) he.le he1 (h.nonneg y hy) (h.le_one hy) hxy
    have h2 := hA.err (x ^ 2)
    have h3 : |x ^ 2| ≤ y ^ 2 + (3 * a * y ^ 2 + 4 * eta) := by
      calc |x ^ 2| = |(x ^ 2 - y ^ 2) + y ^ 2| := by ring_nf
        _ ≤ |x ^ 2 - y ^ 2| + |y ^ 2| := abs_add_le _ _
        _ ≤ _ := by rw [abs_of_nonneg (sq_nonneg y)]; linarith
    have hy2 := sq_nonneg y
    have h4 : uu * |x ^ 2| ≤ 2 * uu * y ^ 2 + eta := by
      have h5 : 3 * a * y ^ 2 ≤ y ^ 2 := by nlinarith
      have h6 : uu * |x ^ 2| ≤ uu * (2 * y ^ 2 + 4 * eta) := mul_le_mul_of_nonneg_left (by linarith) hu.le
      have h7 : uu * (4 * eta) ≤ eta := by nlinarith
      linarith
    calc |A.rnd (x ^ 2) - y ^ 2| = |(A.rnd (x ^ 2) - x ^ 2) + (x ^ 2 - y ^ 2)| := by ring_nf
      _ ≤ |A.rnd (x ^ 2) - x ^ 2| + |x ^ 2 - y ^ 2| := abs_add_le _ _
      _ ≤ (3 * a + 2 * uu) * y ^ 2 + 6 * eta := by linarith
  have hs := key.sum
  rw [List.length_map] at hs
  refine hs.trans ?_
  set Q := (p.map (· ^ 2)).sum with hQd
  have h8 : (p.length : ℝ) * (6 * eta) ≤ uu * Q := by
    have h9 := eta_le_uu (x := Q) ((pow_le_pow_of_le_one (by norm_num) (by norm_num) (by norm_num : 40 ≤ 400)).trans hQ)
    have h10 : n * (6 * eta) ≤ 2 ^ 40 * (6 * (uu * 2⁻¹ ^ 500 * Q)) :=
      mul_le_mul hf (by linarith) (by positivity) (by positivity)
    have h11 : (2 : ℝ) ^ 40 * (6 * (uu * 2⁻¹ ^ 500 * Q)) = (2 ^ 40 * 6 * 2⁻¹ ^ 500) * (uu * Q) := by ring
    have h12 : (2 : ℝ) ^ 40 * 6 * 2⁻¹ ^ 500 ≤ 1 := by
      have : (2 : ℝ)⁻¹ ^ 500 ≤ 2⁻¹ ^ 43 := pow_le_pow_of_le_one (by norm_num) (by norm_num) (by norm_num)
      have h13 : (2 : ℝ) ^ 40 * 6 * 2⁻¹ ^ 43 ≤ 1 := by norm_num
      have : (2 : ℝ) ^ 40 * 6 * 2⁻¹ ^ 500 ≤ 2 ^ 40 * 6 * 2⁻¹ ^ 43 := mul_le_mul_of_nonneg_left this (by positivity)
      exact this.trans h13
    have hQ0 : 0 ≤ uu * Q := mul_nonneg hu.le (le_trans (by positivity) hQ)
    have := mul_le_mul_of_nonneg_right h12 hQ0
    linarith
  have hQ0 : 0 ≤ Q := le_trans (by positivity) hQ
  have h14 : 3 * a + 3 * uu ≤ n * 2⁻¹ ^ 48 := by
    have h15 : n * 2⁻¹ ^ 48 = 4 * a := by rw [ha]; ring
    have h16 : 3 * uu ≤ a := by
      have : (1 : ℝ) * 2⁻¹ ^ 50 ≤ a := mul_le_mul_of_nonneg_right hn (by positivity)
      have h17 : 3 * uu ≤ 1 * 2⁻¹ ^ 50 := by unfold uu; norm_num
      linarith
    linarith
  have h18 := mul_le_mul_of_nonneg_right h14 hQ0
  linarith

/-- `1.0 / np.sum(weights**2.0)` of computed weights is the exact value up to rounding. -/
theorem invsq_close (hA : IsDouble A) {v p : List ℝ} (h : Probs p) (hc : Close (p.length * 2⁻¹ ^ 50) eta v p) {q : ℝ}
    (hq : Added A.rnd (v.map fun x => A.rnd (x ^ 2)) q) :
    0 < q ∧ |A.rnd (1 / q) - 1 / (p.map (· ^ 2)).sum| ≤ p.length * 2⁻¹ ^ 46 * (1 / (p.map (· ^ 2)).sum) := by
  have hu := uu_pos
  have he := eta_pos
  have hn := h.one_le
  have hf := h.few'
  have hQ := h.sumsq
  have h1 := sumsq_close hA h hc
  have hlen : v.length = p.length := hc.length_eq
  set n : ℝ := (p.length : ℝ) with hnd
  set Q := (p.map (· ^ 2)).sum with hQd
  set Q' := (v.map fun x => A.rnd (x ^ 2)).sum with hQ'd
  have hQ0 : 0 < Q := lt_of_lt_of_le (by positivity) hQ
  have hQ1 : Q ≤ 1 := by
    have := list_sumsq_le_sq_sum p h.nonneg
    rwa [h.sum, one_pow] at this
  have hb : n * 2⁻¹ ^ 48 ≤ 2⁻¹ ^ 8 := by
    calc n * 2⁻¹ ^ 48 ≤ 2 ^ 40 * 2⁻¹ ^ 48 := mul_le_mul_of_nonneg_right hf (by positivity)
      _ = 2⁻¹ ^ 8 := by norm_num
  have hus : Usable (v.map fun x => A.rnd (x ^ 2)) := by
    refine ⟨fun x hx => ?_, ?_, by rw [List.length_map, hlen]; exact h.few⟩
    · obtain ⟨y, -, rfl⟩ := List.mem_map.mp hx
      exact hA.nonneg (sq_nonneg y)
    · have h2 := (abs_le.mp h1).1
      have h3 : n * 2⁻¹ ^ 48 * Q ≤ 1 / 2 * Q := mul_le_mul_of_nonneg_right (hb.trans (by norm_num)) hQ0.le
      have h4 : (2⁻¹ : ℝ) ^ 200 ≤ 1 / 2 * 2⁻¹ ^ 40 := by norm_num
      linarith
  have h5 := sum_close hA hus hq
  rw [List.length_map, hlen, ← hQ'd, ← hnd] at h5
  have hQ'0 : 0 ≤ Q' := hus.pos.le
  have h6 : |q - Q'| ≤ n * 2⁻¹ ^ 51 * |Q'| := by rw [abs_of_nonneg hQ'0]; exact h5
  have h7 := rel_chain hQ0.le (by positivity) h1 h6 (by positivity)
  have h8 : n * 2⁻¹ ^ 48 + n * 2⁻¹ ^ 51 + n * 2⁻¹ ^ 48 * (n * 2⁻¹ ^ 51) ≤ n * 2⁻¹ ^ 47 := by
    have h9 : n * 2⁻¹ ^ 48 * (n * 2⁻¹ ^ 51) ≤ 1 * (n * 2⁻¹ ^ 51) := mul_le_mul_of_nonneg_right (hb.trans (by norm_num)) (by positivity)
    have h10 : n * 2⁻¹ ^ 48 + 2 * (n * 2⁻¹ ^ 51) ≤ n * 2⁻¹ ^ 47 := by nlinarith
    linarith
  have h11 : |q - Q| ≤ n * 2⁻¹ ^ 47 * Q := h7.trans (mul_le_mul_of_nonneg_right h8 hQ0.le)
  set d := n * 2⁻¹ ^ 47 with hd
  have hd0 : 0 ≤ d := by positivity
  have hd1 : d ≤ 2⁻¹ ^ 7 := by
    calc d ≤ 2 ^ 40 * 2⁻¹ ^ 47 := mul_le_mul_of_nonneg_right hf (by positivity)
      _ = 2⁻¹ ^ 7 := by norm_num
  have hqpos : 0 < q := by
    have := (abs_le.mp h11).1
    have h12 : d * Q ≤ 1 / 2 * Q := mul_le_mul_of_nonneg_right (hd1.trans (by norm_num)) hQ0.le
    linarith
  refine ⟨hqpos, ?_⟩
  have h13 := div_close (x := 1) zero_le_one hQ0 hd0 (hd1.trans (by norm_num)) h11
  have hq2 : 1 / q ≤ 2 * (1 / Q) := by
    have h14 : d + 2 * d ^ 2 ≤ 1 := by nlinarith [hd1.trans (by norm_num : (2⁻¹ ^ 7 : ℝ) ≤ 1 / 4)]
    have h15 := mul_le_mul_of_nonneg_right h14 (by positivity : 0 ≤ 1 / Q)
    linarith [(abs_le.mp h13).2]
  have h16 := hA.err (1 / q)
  rw [abs_of_pos (by positivity : 0 < 1 / q)] at h16
  have hQi : 1 ≤ 1 / Q := by rw [le_div_iff₀ hQ0]; linarith
  have h17 : eta ≤ uu * (1 / Q) := by
    have h18 := eta_le_uu (x := 1 / Q) (le_trans (pow_le_one₀ (by norm_num) (by norm_num)) hQi)
    have h19 : uu * 2⁻¹ ^ 500 * (1 / Q) ≤ uu * 1 * (1 / Q) :=
      mul_le_mul_of_nonneg_right (mul_le_mul_of_nonneg_left (pow_le_one₀ (by norm_num) (by norm_num)) hu.le) (by positivity)
    linarith
  have h20 := mul_le_mul_of_nonneg_left hq2 hu.le
  calc |A.rnd (1 / q) - 1 / Q| = |(A.rnd (1 / q) - 1 / q) + (1 / q - 1 / Q)| := by ring_nf
    _ ≤ |A.rnd (1 / q) - 1 / q| + |1 / q - 1 / Q| := abs_add_le _ _
    _ ≤ (3 * uu + d + 2 * d ^ 2) * (1 / Q) := by linarith
    _ ≤ n * 2⁻¹ ^ 46 * (1 / Q) := by
        apply mul_le_mul_of_nonneg_right _ (by positivity)
        have h21 : n * 2⁻¹ ^ 46 = 2 * d := by rw [hd]; ring
        have h22 : 3 * uu ≤ d / 2 := by
          have : (1 : ℝ) * 2⁻¹ ^ 47 ≤ d := mul_le_mul_of_nonneg_right hn (by positivity)
          have h23 : 3 * uu ≤ 1 * 2⁻¹ ^ 47 / 2 := by unfold uu; norm_num
          linarith
        have h24 : 2 * d ^ 2 ≤ d / 2 := by nlinarith [hd1.trans (by norm_num : (2⁻¹ ^ 7 : ℝ) ≤ 1 / 4)]
        linarith

/-- The computed effective sample size is the exact one up to rounding. -/
theorem ess_close (hA : IsDouble A) {w : List ℝ} (h : Usable w) {s q : ℝ} (hs : Added A.rnd w s)
    (hq : Added A.rnd ((w.map fun x => A.rnd (x / s)).map fun x => A.rnd (x ^ 2)) q) :
    0 < s ∧ 0 < q ∧ |A.rnd (1 / q) - ess w| ≤ w.length * 2⁻¹ ^ 46 * ess w := by
  have h1 := sum_close hA h hs
  have h2 := normal_close hA h h1
  have h3 : Close ((w.map fun x => x / w.sum).length * 2⁻¹ ^ 50) eta (w.map fun x => A.rnd (x / s)) (w.map fun x => x / w.sum) := by
    rw [List.length_map]; exact h2
  obtain ⟨h4, h5⟩ := invsq_close hA h.probs h3 hq
  rw [List.length_map] at h5
  have h6 : 1 / ((w.map fun x => x / w.sum).map (· ^ 2)).sum = ess w := inv_sumsq_normalized h.pos.ne'
  rw [h6] at h5
  refine ⟨?_, h4, h5⟩
  have h7 := (abs_le.mp h1).1
  have h8 : (w.length : ℝ) * 2⁻¹ ^ 51 ≤ 1 / 2 := by
    calc (w.length : ℝ) * 2⁻¹ ^ 51 ≤ 2 ^ 40 * 2⁻¹ ^ 51 := mul_le_mul_of_nonneg_right h.few' (by positivity)
      _ ≤ 1 / 2 := by norm_num
  have h9 := mul_le_mul_of_nonneg_right h8 h.pos.le
  have := h.pos
  linarith


/-- Kish's formula under relative errors of the sum and of the sum of squares. -/
theorem kish_close {W T S Q a b : ℝ} (hT : 0 < T) (hQ : 0 < Q) (ha : 0 ≤ a) (ha1 : a ≤ 1 / 8) (hb : 0 ≤ b) (hb1 : b ≤ 1 / 8)
    (h1 : |W - T| ≤ a * T) (h2 : |S - Q| ≤ b * Q) : |W ^ 2 / S - T ^ 2 / Q| ≤ (3 * a + 2 * b) * (T ^ 2 / Q) := by
  have h3 : |W ^ 2 - T ^ 2| ≤ (2 * a + a ^ 2) * T ^ 2 := by
    have h4 : |W + T| ≤ (2 + a) * T := by
      calc |W + T| = |(W - T) + 2 * T| := by ring_nf
        _ ≤ |W - T| + |2 * T| := abs_add_le _ _
        _ ≤ _ := by rw [abs_of_pos (by linarith : (0 : ℝ) < 2 * T)]; linarith
    calc |W ^ 2 - T ^ 2| = |W - T| * |W + T| := by rw [← abs_mul]; ring_nf
      _ ≤ (a * T) * ((2 + a) * T) := mul_le_mul h1 h4 (abs_nonneg _) (by positivity)
      _ = _ := by ring
  have h5 : |W ^ 2 / Q - T ^ 2 / Q| ≤ (2 * a + a ^ 2) * (T ^ 2 / Q) := by
    rw [← sub_div, abs_div, abs_of_pos hQ, ← mul_div_assoc]
    exact div_le_div_of_nonneg_right h3 hQ.le
  have h6 := div_close (x := W ^ 2) (sq_nonneg W) hQ hb (hb1.trans (by norm_num)) h2
  have h7 : |W ^ 2 / S - W ^ 2 / Q| ≤ (b + 2 * b ^ 2) * |W ^ 2 / Q| := by
    rw [abs_of_nonneg (by positivity : 0 ≤ W ^ 2 / Q)]; exact h6
  have h8 := rel_chain (by positivity) (by positivity) h5 h7 (by positivity)
  refine h8.trans (mul_le_mul_of_nonneg_right ?_ (by positivity))
  have e1 : 2 * a + a ^ 2 ≤ 5 / 2 * a := by nlinarith
  have e2 : b + 2 * b ^ 2 ≤ 5 / 4 * b := by nlinarith
  have e3 : (2 * a + a ^ 2) * (b + 2 * b ^ 2) ≤ 5 / 2 * a * (5 / 4 * b) := mul_le_mul e1 e2 (by positivity) (by positivity)
  have e4 : 5 / 2 * a * (5 / 4 * b) ≤ b * (25 / 64) := by nlinarith
  nlinarith

/-- What the computed weight of a log-weight at distance `x ≤ 0` from the maximum is worth. -/
theorem exp_close (hA : IsDouble A) {x : ℝ} (hx : x ≤ 0) : |A.exp (A.rnd x) - Real.exp x| ≤ 2⁻¹ ^ 40 * Real.exp x + 2⁻¹ ^ 1000 := by
  have hu := uu_pos
  have hr0 : A.rnd x ≤ 0 := by rw [← hA.zero]; exact hA.mono hx
  have hn := hA.exp_near _ hr0
  have hr := hA.err x
  have hbig : (2⁻¹ : ℝ) ^ 1074 ≤ 2⁻¹ ^ 1002 := pow_le_pow_of_le_one (by norm_num) (by norm_num) (by norm_num)
  have hb2 : (2⁻¹ : ℝ) ^ 1002 = 1 / 4 * 2⁻¹ ^ 1000 := by rw [pow_succ, pow_succ]; ring
  have hb0 : (0 : ℝ) < 2⁻¹ ^ 1000 := by positivity
  have hexp : Real.exp (-1024) ≤ 2⁻¹ ^ 1002 := by
    have h1 : Real.exp (-1024) = Real.exp (-1) ^ 1024 := by rw [← Real.exp_nat_mul]; norm_num
    have h2 : Real.exp (-1) ≤ 2⁻¹ := by
      rw [Real.exp_neg]
      exact inv_anti₀ (by norm_num) (by linarith [Real.add_one_le_exp (1 : ℝ)])
    rw [h1]
    exact (pow_le_pow_left₀ (Real.exp_pos _).le h2 1024).trans (pow_le_pow_of_le_one (by norm_num) (by norm_num) (by norm_num))
  generalize (2⁻¹ : ℝ) ^ 1000 = t at *
  generalize (2⁻¹ : ℝ) ^ 1002 = t2 at *
  generalize (2⁻¹ : ℝ) ^ 1074 = t3 at *
  by_cases hc : -1024 ≤ x
  · have hd : |A.rnd x - x| ≤ 2⁻¹ ^ 42 := by
      have h1 : |x| ≤ 1024 := by rw [abs_of_nonpos hx]; linarith
      have h2 : eta ≤ 2⁻¹ ^ 43 := by unfold eta; exact pow_le_pow_of_le_one (by norm_num) (by norm_num) (by norm_num)
      have h3 := mul_le_mul_of_nonneg_left h1 hu.le
      have h4 : uu * 1024 = 2⁻¹ ^ 43 := by unfold uu; norm_num
      have h5 : (2⁻¹ : ℝ) ^ 43 + 2⁻¹ ^ 43 = 2⁻¹ ^ 42 := by norm_num
      linarith
    have hE : Real.exp (A.rnd x) = Real.exp x * Real.exp (A.rnd x - x) := by rw [← Real.exp_add]; ring_nf
    have hq : |Real.exp (A.rnd x - x) - 1| ≤ 2⁻¹ ^ 41 := by
      have h6 := Real.abs_exp_sub_one_le (x := A.rnd x - x) (hd.trans (by norm_num))
      calc _ ≤ 2 * |A.rnd x - x| := h6
        _ ≤ 2 * 2⁻¹ ^ 42 := by linarith
        _ = _ := by norm_num
    have hex := Real.exp_pos x
    have h7 : |Real.exp (A.rnd x) - Real.exp x| ≤ 2⁻¹ ^ 41 * Real.exp x := by
      rw [hE, show Real.exp x * Real.exp (A.rnd x - x) - Real.exp x = Real.exp x * (Real.exp (A.rnd x - x) - 1) by ring, abs_mul,
        abs_of_pos hex, mul_comm]
      exact mul_le_mul_of_nonneg_right hq hex.le
    have h8 : Real.exp (A.rnd x) ≤ 2 * Real.exp x := by
      have := (abs_le.mp h7).2
      have h9 : (2⁻¹ : ℝ) ^ 41 * Real.exp x ≤ 1 * Real.exp x := mul_le_mul_of_nonneg_right (by norm_num) hex.le
      linarith
    calc |A.exp (A.rnd x) - Real.exp x| = |(A.exp (A.rnd x) - Real.exp (A.rnd x)) + (Real.exp (A.rnd x) - Real.exp x)| := by ring_nf
      _ ≤ |A.exp (A.rnd x) - Real.exp (A.rnd x)| + |Real.exp (A.rnd x) - Real.exp x| := abs_add_le _ _
      _ ≤ (2⁻¹ ^ 52 * (2 * Real.exp x) + t3) + 2⁻¹ ^ 41 * Real.exp x := by
          have : (2⁻¹ : ℝ) ^ 52 * Real.exp (A.rnd x) ≤ 2⁻¹ ^ 52 * (2 * Real.exp x) := mul_le_mul_of_nonneg_left h8 (by positivity)
          linarith
      _ ≤ 2⁻¹ ^ 40 * Real.exp x + t := by
          have : (2⁻¹ : ℝ) ^ 52 * 2 + 2⁻¹ ^ 41 ≤ 2⁻¹ ^ 40 := by norm_num
          nlinarith
  · push Not at hc
    have hr1 : A.rnd x ≤ -1024 := by
      have h1 := hA.mono hc.le
      have h2 : A.rnd (-1024) = -1024 := by
        rw [hA.neg]; congr 1; simpa using hA.nat 1024 (by norm_num)
      rwa [h2] at h1
    have e1 : Real.exp (A.rnd x) ≤ t2 := (Real.exp_le_exp.mpr hr1).trans hexp
    have e2 : Real.exp x ≤ t2 := (Real.exp_le_exp.mpr hc.le).trans hexp
    have p1 := Real.exp_pos (A.rnd x)
    have p2 := Real.exp_pos x
    have h3 : (2⁻¹ : ℝ) ^ 52 * Real.exp (A.rnd x) ≤ 1 * Real.exp (A.rnd x) := mul_le_mul_of_nonneg_right (by norm_num) p1.le
    have h4 : (0 : ℝ) ≤ 2⁻¹ ^ 40 * Real.exp x := by positivity
    have h5 := abs_le.mp hn
    rw [abs_le]
    constructor <;> linarith

end Poco
