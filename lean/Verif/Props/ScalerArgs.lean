import Verif.Model.ScalerArgs
import Verif.Props.Scaler
import Mathlib.Data.Set.Finite.Lattice
import Mathlib.Data.Int.Interval

/-! C94: the `bounds` argument of `Reparameterize`. -/

namespace Poco
open F Spec

variable {d : ℕ}

/-! ### single precision -/

/-- The finite numbers of single precision: 24 binary digits, exponents of binary32. -/
def Spec.Single (y : ℝ) : Prop := ∃ m e : ℤ, |m| < 2 ^ 24 ∧ -149 ≤ e ∧ e ≤ 104 ∧ y = m * 2 ^ e

/-- Conversion to single precision: the special values stay, a number that is not too large becomes a nearest one. -/
structure Spec.ToSingle (cast : F → F) : Prop where
  nan : cast nan = nan
  pinf : cast pinf = pinf
  ninf : cast ninf = ninf
  near : ∀ x : ℝ, |x| ≤ 2 ^ 127 → ∃ y, Single y ∧ cast (fin x) = fin y ∧ ∀ z, Single z → |y - x| ≤ |z - x|

/-! ### what the documentation says -/

/-- The bounds a user means by an argument: none at all, the same two for every parameter, or a row for each. -/
def Spec.Meant (low high : Fin d → F) : BoundsArg → Prop
  | .none => low = (fun _ => ninf) ∧ high = fun _ => pinf
  | .pair a b => low = (fun _ => a) ∧ high = fun _ => b
  | .pairs l => l = List.ofFn fun i => (low i, high i)
  | .array _ rows => rows = List.ofFn fun i => [low i, high i]

theorem column_ofFn (low high : Fin d → F) :
    column (List.ofFn fun i => [low i, high i]) 0 = .ok (List.ofFn low) ∧
    column (List.ofFn fun i => [low i, high i]) 1 = .ok (List.ofFn high) := by
  constructor <;>
  · unfold column
    induction d with
    | zero => simp [pure, Except.pure]
    | succ n ih =>
      have := ih (fun i => low i.succ) (fun i => high i.succ)
      simp only [List.ofFn_succ, List.mapM_cons, this]
      rfl

theorem make_ofFn (cast : F → F) (b : BoundsArg) (low high : Fin d → F) (per ref : Option (List (Fin d)))
    (t : Transform) (sc : Bool) (h : boundsOf cast d b = .ok (List.ofFn low, List.ofFn high)) :
    Scaler.make cast d b per ref t sc = .ok { low, high, periodic := per, reflective := ref, transform := t, scale := sc
                                              affine := none } := by
  unfold Scaler.make
  rw [h]
  simp only [bind, Except.bind, List.length_ofFn, and_self, dite_true, pure, Except.pure]
  congr 2 <;> (funext i; simp)

/-- **C94**, partial: an array of floating point numbers with a row for each parameter, and a pair of numbers that single
precision can hold, give the bounds meant.  Missing: `None`, lists of pairs, integer arrays and other pairs, where it is
false: `C94_none_refuses`, `C94_lists_refused`, `C94_integers_refused`, `C94_pair_moved`. -/
theorem C94_bounds_partial (cast : F → F) (b : BoundsArg) (low high : Fin d → F) (hm : Meant low high b)
    (hb : match b with
      | .array isFloat _ => isFloat = true
      | .pair x y => cast x = x ∧ cast y = y
      | _ => False)
    (per ref : Option (List (Fin d))) (t : Transform) (sc : Bool) :
    ∃ s, Scaler.make cast d b per ref t sc = .ok s ∧ s.low = low ∧ s.high = high ∧ s.periodic = per ∧ s.reflective = ref ∧
      s.transform = t ∧ s.scale = sc := by
  refine ⟨_, make_ofFn cast b low high per ref t sc ?_, rfl, rfl, rfl, rfl, rfl, rfl⟩
  cases b with
  | none => exact hb.elim
  | pairs l => exact hb.elim
  | pair x y =>
    obtain ⟨rfl, rfl⟩ := hm
    simp only at hb
    simp [boundsOf, hb.1, hb.2, List.ofFn_const]
  | array f rows =>
    simp only at hb
    have hm : rows = _ := hm
    subst hm hb
    have h2 : ∀ r ∈ List.ofFn fun i => [low i, high i], r.length = 2 := by
      intro r hr
      obtain ⟨i, rfl⟩ := (List.mem_ofFn' _ _).mp hr
      rfl
    obtain ⟨c0, c1⟩ := column_ofFn low high
    simp only [boundsOf]
    rw [if_neg (fun h => h.2 h2)]
    simp only [Bool.not_true, Bool.false_eq_true, if_false, c0, c1]
    simp [maskIndex, bind, Except.bind]

/-- **C94** is false for `None`: the object is made, but `forward` and `fit` raise ValueError on every batch with a finite
point in it. -/
theorem C94_none_refuses (cast : F → F) (per ref : Option (List (Fin d))) (t : Transform) (sc : Bool) :
    ∃ s, Scaler.make cast d .none per ref t sc = .ok s ∧ ∀ (xs : List (Pt d)) (x : Fin d → ℝ) (_ : Fin d), pt x ∈ xs →
      s.forward xs = .error .valueError ∧ s.fit xs = .error .valueError := by
  refine ⟨_, make_ofFn cast .none (fun _ => pinf) (fun _ => pinf) per ref t sc (by simp [boundsOf, List.ofFn_const]), ?_⟩
  intro xs x i hx
  have h : withinInterval (d := d) (fun _ => pinf) (fun _ => pinf) xs = false := by
    rw [← Bool.not_eq_true, withinInterval_iff]
    intro h
    have := (h _ hx i).1
    simp [isnan, pt] at this
  simp [Scaler.forward, Scaler.fit, h]

/-- **C94** is false for a list of pairs: AttributeError. -/
theorem C94_lists_refused (cast : F → F) (l : List (F × F)) (per ref : Option (List (Fin d))) (t : Transform) (sc : Bool) :
    Scaler.make cast d (.pairs l) per ref t sc = .error .attributeError := rfl

/-- **C94** is false for an integer array with a row for each parameter: ValueError. -/
theorem C94_integers_refused (cast : F → F) (low high : Fin d → F) (rows : List (List F))
    (hm : Meant low high (.array false rows)) (per ref : Option (List (Fin d))) (t : Transform) (sc : Bool) :
    Scaler.make cast d (.array false rows) per ref t sc = .error .valueError := by
  have hm : rows = _ := hm
  subst hm
  have h2 : ∀ r ∈ List.ofFn fun i => [low i, high i], r.length = 2 := by
    intro r hr
    obtain ⟨i, rfl⟩ := (List.mem_ofFn' _ _).mp hr
    rfl
  have : boundsOf cast d (.array false (List.ofFn fun i => [low i, high i])) = .error .valueError := by
    simp only [boundsOf]
    rw [if_neg (fun h => h.2 h2)]
    rfl
  unfold Scaler.make
  rw [this]
  rfl

/-! ### pairs -/

theorem Spec.Single.near_one {y : ℝ} (h : Single y) (hy : |y - 1| < 2⁻¹ ^ 24) : y = 1 := by
  obtain ⟨m, e, hm, -, -, rfl⟩ := h
  have hm' : (m : ℝ) ≤ 2 ^ 24 - 1 := by
    have : m ≤ 2 ^ 24 - 1 := by have := (abs_lt.mp hm).2; omega
    exact_mod_cast this
  have h1 := abs_lt.mp hy
  rcases lt_or_ge e (-23) with he | he
  · exfalso
    have hp : (2 : ℝ) ^ e ≤ 2⁻¹ ^ 24 := by
      have : (2 : ℝ) ^ e ≤ 2 ^ (-24 : ℤ) := zpow_le_zpow_right₀ one_le_two (by omega)
      calc (2 : ℝ) ^ e ≤ 2 ^ (-24 : ℤ) := this
        _ = 2⁻¹ ^ 24 := by norm_num
    have hpp : (0 : ℝ) < 2 ^ e := by positivity
    have : (m : ℝ) * 2 ^ e ≤ (2 ^ 24 - 1) * 2⁻¹ ^ 24 := by
      calc (m : ℝ) * 2 ^ e ≤ (2 ^ 24 - 1) * 2 ^ e := by gcongr
        _ ≤ (2 ^ 24 - 1) * 2⁻¹ ^ 24 := by gcongr
    norm_num at this h1
    linarith [h1.1]
  · obtain ⟨k, rfl⟩ : ∃ k : ℕ, e = -23 + k := ⟨(e + 23).toNat, by omega⟩
    have e1 : (m : ℝ) * 2 ^ (-23 + (k : ℤ)) = ((m * 2 ^ k : ℤ) : ℝ) * 2⁻¹ ^ 23 := by
      rw [zpow_add₀ two_ne_zero]
      push_cast
      rw [zpow_natCast]
      norm_num
      ring
    rw [e1] at h1 ⊢
    have h2 : (m * 2 ^ k : ℤ) = 2 ^ 23 := by
      generalize (m * 2 ^ k : ℤ) = q at h1
      have a1 : ((2 ^ 23 - 1 : ℤ) : ℝ) < q := by
        push_cast; norm_num at h1 ⊢; linarith [h1.1]
      have a2 : (q : ℝ) < ((2 ^ 23 + 1 : ℤ) : ℝ) := by
        push_cast; norm_num at h1 ⊢; linarith [h1.2]
      have a1' : (2 ^ 23 - 1 : ℤ) < q := by exact_mod_cast a1
      have a2' : q < (2 ^ 23 + 1 : ℤ) := by exact_mod_cast a2
      omega
    rw [h2]
    norm_num

theorem Spec.ToSingle.near_one {cast : F → F} (h : ToSingle cast) {x : ℝ} (hx : |x - 1| ≤ 2⁻¹ ^ 30) :
    cast (fin x) = fin 1 := by
  have h1 := abs_le.mp hx
  obtain ⟨y, hy, hc, hn⟩ := h.near x (by
    rw [abs_le]
    norm_num at h1 ⊢
    constructor <;> linarith [h1.1, h1.2])
  have h2 := hn 1 ⟨1, 0, by norm_num, by norm_num, by norm_num, by norm_num⟩
  rw [hc, hy.near_one]
  have h3 : |(1 : ℝ) - x| ≤ 2⁻¹ ^ 30 := by rwa [abs_sub_comm]
  calc |y - 1| = |(y - x) + (x - 1)| := by congr 1; ring
    _ ≤ |y - x| + |x - 1| := abs_add_le _ _
    _ ≤ 2⁻¹ ^ 30 + 2⁻¹ ^ 30 := add_le_add (h2.trans h3) hx
    _ < 2⁻¹ ^ 24 := by norm_num

theorem Spec.ToSingle.zero {cast : F → F} (h : ToSingle cast) : cast (fin 0) = fin 0 := by
  obtain ⟨y, -, hc, hn⟩ := h.near 0 (by simp)
  have := hn 0 ⟨0, 0, by norm_num, by norm_num, by norm_num, by norm_num⟩
  simp only [sub_zero, abs_zero] at this
  rw [hc, abs_nonpos_iff.mp this]

/-- **C94** is false for pairs, because they are converted to single precision: a point strictly between the two bounds given
can be refused, and a point outside them accepted. -/
theorem C94_pair_moved (cast : F → F) (hc : ToSingle cast) (hd : 0 < d) (per ref : Option (List (Fin d))) (t : Transform) :
    (∃ b s x, Scaler.make cast d (.pair (fin 0) (fin b)) per ref t false = .ok s ∧
      StrictlyInside (fun _ => fin 0) (fun _ => fin b) x ∧ s.forward [pt x] = .error .valueError) ∧
    (∃ b s x, Scaler.make cast d (.pair (fin 0) (fin b)) per ref t false = .ok s ∧
      (∀ i, b < x i) ∧ ∃ u, s.forward [pt x] = .ok u) := by
  have mk : ∀ b : ℝ, cast (fin b) = fin 1 → Scaler.make cast d (.pair (fin 0) (fin b)) per ref t false =
      .ok { low := fun _ => fin 0, high := fun _ => fin 1, periodic := per, reflective := ref, transform := t
            scale := false, affine := none } := fun b hb =>
    make_ofFn cast _ _ _ per ref t false (by simp [boundsOf, List.ofFn_const, hb, hc.zero])
  constructor
  · refine ⟨1 + 2⁻¹ ^ 30, _, fun _ => 1 + 2⁻¹ ^ 31, mk _ (hc.near_one (by norm_num)), ?_, ?_⟩
    · intro i
      constructor
      · intro l hl
        rw [← fin_inj.mp hl]
        norm_num
      · intro l hl
        rw [← fin_inj.mp hl]
        norm_num
    · unfold Scaler.forward
      have h : withinInterval (d := d) (fun _ => fin 0) (fun _ => fin 1) [pt fun _ => 1 + 2⁻¹ ^ 31] = false := by
        rw [← Bool.not_eq_true, withinInterval_iff]
        intro h
        have := (h _ (List.mem_singleton_self _) ⟨0, hd⟩).2
        simp [isnan, pt] at this
        norm_num at this
      rw [show ((true && !withinInterval (d := d) (fun _ => fin 0) (fun _ => fin 1) [pt fun _ => 1 + 2⁻¹ ^ 31]) = true) from by
        rw [h]; rfl]
      rfl
  · refine ⟨1 - 2⁻¹ ^ 30, _, fun _ => 1 - 2⁻¹ ^ 31, mk _ (hc.near_one (by norm_num [abs_le])), fun i => by norm_num, ?_⟩
    unfold Scaler.forward
    have h : withinInterval (d := d) (fun _ => fin 0) (fun _ => fin 1) [pt fun _ => 1 - 2⁻¹ ^ 31] = true := by
      rw [withinInterval_iff]
      intro row hrow i
      rw [List.mem_singleton.mp hrow]
      simp [isnan, pt]
      norm_num
    simp only [h, Bool.not_true, Bool.and_false, Bool.false_eq_true, if_false]
    exact ⟨_, mapM_ok (fun a => _) _ _ fun a _ => rfl⟩

/-- There is such a conversion. -/
theorem exists_toSingle : ∃ cast, ToSingle cast := by
  have hfin : {y : ℝ | Single y}.Finite := by
    refine ((Set.finite_Icc (-2 ^ 24 : ℤ) (2 ^ 24)).prod (Set.finite_Icc (-149 : ℤ) 104)).image
      (fun p : ℤ × ℤ => (p.1 : ℝ) * 2 ^ p.2) |>.subset ?_
    rintro y ⟨m, e, hm, h1, h2, rfl⟩
    have := abs_lt.mp hm
    exact ⟨(m, e), ⟨⟨this.1.le, this.2.le⟩, h1, h2⟩, rfl⟩
  have hne : {y : ℝ | Single y}.Nonempty := ⟨0, 0, 0, by norm_num, by norm_num, by norm_num, by norm_num⟩
  choose f hf hmin using fun x : ℝ => Set.exists_min_image {y : ℝ | Single y} (fun y => |y - x|) hfin hne
  exact ⟨fun
    | fin x => fin (f x)
    | y => y, rfl, rfl, rfl, fun x _ => ⟨f x, hf x, rfl, fun z hz => hmin x z hz⟩⟩

/-- Bounds given as an array of two rows (C94). -/
example (cast : F → F) : ∃ s, Scaler.make cast 2 (.array true [[fin 0, fin 1], [ninf, fin 3]]) none none .probit true = .ok s ∧
    s.low = ![fin 0, ninf] ∧ s.high = ![fin 1, fin 3] := by
  obtain ⟨s, h1, h2, h3, -⟩ := C94_bounds_partial cast (.array true [[fin 0, fin 1], [ninf, fin 3]]) ![fin 0, ninf]
    ![fin 1, fin 3] (by simp [Meant]) rfl none none .probit true
  exact ⟨s, h1, h2, h3⟩

/-- The example in the documentation, an array of integers, is refused (C94). -/
example (cast : F → F) :
    Scaler.make cast 2 (.array false [[fin 0, fin 1], [fin 0, fin 1]]) none none .probit true = .error .valueError :=
  C94_integers_refused cast ![fin 0, fin 0] ![fin 1, fin 1] _ (by simp [Meant]) none none .probit true

/-- The hypothesis of `C94_pair_moved` is met (C94). -/
example : ∃ cast, ToSingle cast ∧ ∃ b s x, Scaler.make cast 3 (.pair (fin 0) (fin b)) none none .logit false = .ok s ∧
    StrictlyInside (fun _ => fin 0) (fun _ => fin b) x ∧ s.forward [pt x] = .error .valueError := by
  obtain ⟨c, hc⟩ := exists_toSingle
  exact ⟨c, hc, (C94_pair_moved c hc (by norm_num) none none .logit).1⟩

end Poco
