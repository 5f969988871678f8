import Verif.Lemmas.Mixture
import Mathlib.Tactic.NormNum

/-! # C15-C20: importance weights, evidence, results -/

namespace Poco
open F Spec

variable {d : ℕ} {B : Type}

/-- A concrete two-iteration history used to show that hypotheses are satisfiable. -/
noncomputable def exampleStages : List Stage := [⟨0, 0, [-3, 1]⟩, ⟨1 / 2, -1, [0, 2]⟩]
theorem exampleStages_rect : Rect exampleStages 2 := by
  refine ⟨by simp [exampleStages], by norm_num, ?_⟩
  intro s hs
  simp only [exampleStages, List.mem_cons, List.not_mem_nil, or_false] at hs
  rcases hs with rfl | rfl <;> rfl
/-- A store holding the given stages (other columns empty). -/
def pastOf (h : List Stage) : Cols 1 Unit List :=
  { u := [], x := [], logdetj := [], logl := h.map (fun s => s.logl.map fin), logp := [], logw := [], blobs := [],
    iter := [], logz := h.map (fun s => fin s.logz), calls := [], steps := [], efficiency := [], ess := [],
    accept := [], beta := h.map (fun s => fin s.beta) }
theorem pastOf_holds (h : List Stage) : Holds (pastOf h) h := ⟨rfl, rfl, rfl⟩

/-- **C15.** For a non-empty rectangular history of finite values and any finite `β`, the returned log-weights are, for
every stored particle in storage order, the log of `L^β / mixture(L)` normalised by the sum; so the weights are
positive and sum to one.  The returned `logz` is the log of the average unnormalised weight. -/
theorem C15_mixture_weights (past : Cols d B List) (h : List Stage) (n : ℕ) (hr : Rect h n) (hh : Holds past h) (β : ℝ) :
    ∃ (logw : List ℝ) (z : ℝ), computeLogwLogz past (fin β) = .ok (logw.map fin, fin z) ∧
      logw.map Real.exp = (allLogl h).map (fun l => weight h β l / totalWeight h β) ∧
      (logw.map Real.exp).sum = 1 ∧
      Real.exp z = totalWeight h β / (allLogl h).length ∧ (allLogl h).length = h.length * n := by
  have ht := totalWeight_pos hr β
  have hl := length_pos_real hr.allLogl_ne
  have e : ((allLogl h).map fun l => Real.log (weight h β l) - Real.log (totalWeight h β)).map Real.exp
      = (allLogl h).map (fun l => weight h β l / totalWeight h β) := by
    rw [List.map_map]
    apply List.map_congr_left
    intro l _
    simp only [Function.comp]
    rw [Real.exp_sub, Real.exp_log (weight_pos h hr.1 β l), Real.exp_log ht]
  refine ⟨(allLogl h).map fun l => Real.log (weight h β l) - Real.log (totalWeight h β),
    Real.log (totalWeight h β / (allLogl h).length), ?_, e, ?_, ?_, hr.length_allLogl⟩
  · rw [computeLogwLogz_fin past h n hr hh β true]; simp [Function.comp_def]
  · rw [e]
    have := list_sum_map_div (totalWeight h β) ((allLogl h).map (weight h β))
    rw [List.map_map] at this
    simp only [Function.comp_def] at this
    rw [this]
    exact div_self ht.ne'
  · exact Real.exp_log (div_pos ht hl)

example : Rect exampleStages 2 ∧ Holds (pastOf exampleStages) exampleStages :=
  ⟨exampleStages_rect, pastOf_holds _⟩

/-- **C16.** If every stored iteration is a prior draw (`β = 0`, `logz = 0`), the normalised weights at `β` are
`L^β / Σ L^β`; at `β = 0` they are all `1/N` and the returned log-evidence is 0. -/
theorem C16_prior_history (past : Cols d B List) (h : List Stage) (n : ℕ) (hr : Rect h n) (hh : Holds past h)
    (hp : ∀ s ∈ h, s.beta = 0 ∧ s.logz = 0) (β : ℝ) :
    (∃ (logw : List ℝ) (z : ℝ), computeLogwLogz past (fin β) = .ok (logw.map fin, fin z) ∧
      logw.map Real.exp = (allLogl h).map
        (fun l => Real.exp (l * β) / ((allLogl h).map fun l' => Real.exp (l' * β)).sum)) ∧
    (∃ logw : List ℝ, computeLogwLogz past (fin 0) = .ok (logw.map fin, fin 0) ∧
      logw.map Real.exp = (allLogl h).map (fun _ => 1 / ((allLogl h).length : ℝ))) := by
  have hm : ∀ l, mixture h l = 1 := by
    intro l
    unfold mixture
    have : (h.map fun s => Real.exp (l * s.beta) / Real.exp s.logz) = h.map fun _ => (1 : ℝ) := by
      apply List.map_congr_left
      intro s hs
      obtain ⟨a, b⟩ := hp s hs
      simp [a, b]
    rw [this]
    simp [(length_pos_real hr.1).ne']
  have hw : ∀ β l, weight h β l = Real.exp (l * β) := by
    intro β l; unfold weight; rw [hm, div_one]
  have hw' : ∀ β, weight h β = fun l => Real.exp (l * β) := fun β => funext (hw β)
  constructor
  · obtain ⟨logw, z, h1, h2, -, -⟩ := C15_mixture_weights past h n hr hh β
    refine ⟨logw, z, h1, ?_⟩
    rw [h2]
    unfold totalWeight
    rw [hw']
  · obtain ⟨logw, z, h1, h2, -, h4, -⟩ := C15_mixture_weights past h n hr hh 0
    have ht : totalWeight h 0 = (allLogl h).length := by
      unfold totalWeight; rw [hw']; simp
    rw [ht, div_self (length_pos_real hr.allLogl_ne).ne'] at h4
    have hz : z = 0 := by simpa using h4
    rw [hz] at h1
    refine ⟨logw, h1, ?_⟩
    rw [h2, ht, hw']
    simp

example : ∃ h : List Stage, Rect h 2 ∧ (∀ s ∈ h, s.beta = 0 ∧ s.logz = 0) ∧ h.length = 2 := by
  refine ⟨[⟨0, 0, [-3, 1]⟩, ⟨0, 0, [5, 1]⟩], ⟨by simp, by norm_num, ?_⟩, ?_, rfl⟩ <;>
  · intro s hs
    simp only [List.mem_cons, List.not_mem_nil, or_false] at hs
    rcases hs with rfl | rfl <;> simp

/-- The history seen with the likelihood multiplied by `e^c`: log-likelihoods move by `c`, the stored log-evidence of
an iteration at `β_t` by `c β_t`. -/
noncomputable def rescale (c : ℝ) (h : List Stage) : List Stage :=
  h.map fun s => ⟨s.beta, s.logz + c * s.beta, s.logl.map (· + c)⟩

theorem mixture_rescale (c : ℝ) (h : List Stage) (l : ℝ) : mixture (rescale c h) (l + c) = mixture h l := by
  unfold mixture rescale
  simp only [List.map_map, List.length_map]
  congr 2
  apply List.map_congr_left
  intro s _
  simp only [Function.comp]
  rw [← Real.exp_sub, ← Real.exp_sub]
  congr 1; ring

theorem weight_rescale (c : ℝ) (h : List Stage) (β l : ℝ) :
    weight (rescale c h) β (l + c) = Real.exp (c * β) * weight h β l := by
  unfold weight
  rw [mixture_rescale, add_mul, Real.exp_add]; ring

theorem allLogl_rescale (c : ℝ) (h : List Stage) : allLogl (rescale c h) = (allLogl h).map (· + c) := by
  unfold allLogl rescale
  induction h with
  | nil => rfl
  | cons s t ih => simp only [List.map_cons, List.flatMap_cons, List.map_append, ih]

theorem totalWeight_rescale (c : ℝ) (h : List Stage) (β : ℝ) :
    totalWeight (rescale c h) β = Real.exp (c * β) * totalWeight h β := by
  unfold totalWeight
  rw [allLogl_rescale, List.map_map, ← list_sum_map_mul, List.map_map]
  congr 1
  apply List.map_congr_left
  intro l _
  exact weight_rescale c h β l

theorem rescale_rect {c : ℝ} {h : List Stage} {n : ℕ} (hr : Rect h n) : Rect (rescale c h) n := by
  refine ⟨by simpa [rescale] using hr.1, hr.2.1, ?_⟩
  intro s hs
  obtain ⟨s', hs', rfl⟩ := List.mem_map.mp hs
  simpa using hr.2.2 s' hs'

/-- **C17.** Multiplying the likelihood by `e^c` leaves the normalised weights unchanged and moves the returned
log-evidence at `β` by exactly `c β`. -/
theorem C17_rescale (past past' : Cols d B List) (h : List Stage) (n : ℕ) (hr : Rect h n) (c : ℝ)
    (hh : Holds past h) (hh' : Holds past' (rescale c h)) (β : ℝ) :
    ∃ (logw : List F) (z : ℝ), computeLogwLogz past (fin β) = .ok (logw, fin z) ∧
      computeLogwLogz past' (fin β) = .ok (logw, fin (z + c * β)) := by
  have ht := totalWeight_pos hr β
  have hl := length_pos_real hr.allLogl_ne
  refine ⟨_, _, computeLogwLogz_fin past h n hr hh β true, ?_⟩
  rw [computeLogwLogz_fin past' _ n (rescale_rect hr) hh' β true]
  congr 1
  refine Prod.ext ?_ ?_
  · simp only [if_true]
    rw [allLogl_rescale, List.map_map]
    apply List.map_congr_left
    intro l _
    simp only [Function.comp]
    rw [weight_rescale, totalWeight_rescale, Real.log_mul (Real.exp_ne_zero _) (weight_pos h hr.1 β l).ne',
      Real.log_mul (Real.exp_ne_zero _) ht.ne']
    congr 1; ring
  · simp only
    rw [totalWeight_rescale, allLogl_rescale, List.length_map, mul_div_assoc,
      Real.log_mul (Real.exp_ne_zero _) (div_pos ht hl).ne', Real.log_exp]
    congr 1; ring

example : Rect exampleStages 2 ∧ Holds (pastOf exampleStages) exampleStages ∧
    Holds (pastOf (rescale 7 exampleStages)) (rescale 7 exampleStages) :=
  ⟨exampleStages_rect, pastOf_holds _, pastOf_holds _⟩

/-- **C18.** Permuting the stored iterations permutes the weights the same way and leaves the log-evidence unchanged:
there is one function giving each particle's weight from its log-likelihood, the same for both orders. -/
theorem C18_order_irrelevant (past past' : Cols d B List) (h h' : List Stage) (n : ℕ) (hr : Rect h n)
    (hperm : h.Perm h') (hh : Holds past h) (hh' : Holds past' h') (β : ℝ) :
    ∃ (f : ℝ → F) (z : F),
      computeLogwLogz past (fin β) = .ok (h.flatMap fun s => s.logl.map f, z) ∧
      computeLogwLogz past' (fin β) = .ok (h'.flatMap fun s => s.logl.map f, z) := by
  have hr' : Rect h' n := ⟨fun hc => hr.1 (by subst hc; exact hperm.eq_nil), hr.2.1,
    fun s hs => hr.2.2 s (hperm.mem_iff.mpr hs)⟩
  have hmix : ∀ l, mixture h l = mixture h' l := by
    intro l
    unfold mixture
    rw [(hperm.map _).sum_eq, hperm.length_eq]
  have hw : weight h β = weight h' β := by
    funext l; unfold weight; rw [hmix]
  have hall : (allLogl h).Perm (allLogl h') := hperm.flatMap_right _
  have ht : totalWeight h β = totalWeight h' β := by
    unfold totalWeight; rw [hw, (hall.map _).sum_eq]
  have hfm : ∀ (k : List Stage) (f : ℝ → F), (k.flatMap fun s => s.logl.map f) = (allLogl k).map f := by
    intro k f
    unfold allLogl
    induction k with
    | nil => rfl
    | cons s t ih => simp only [List.flatMap_cons, List.map_append, ih]
  refine ⟨fun l => fin (Real.log (weight h β l) - Real.log (totalWeight h β)),
    fin (Real.log (totalWeight h β / (allLogl h).length)), ?_, ?_⟩
  · rw [computeLogwLogz_fin past h n hr hh β true, hfm]; simp
  · rw [computeLogwLogz_fin past' h' n hr' hh' β true, hfm, hw, ht, hall.length_eq]; simp

example : Rect exampleStages 2 ∧ exampleStages.Perm exampleStages.reverse :=
  ⟨exampleStages_rect, exampleStages.reverse_perm.symm⟩

/-! ### C19 -/

/-- **C19** (partial).  The first access to `results` describes the current history.  Missing: any access after more
iterations were added; that is false, see `C19_results_stale`. -/
theorem C19_first_access_partial (p : Particles d B) (hnone : p.resultsDict = none) (p' : Particles d B)
    (r : Results d B) (h : p.computeResults = .ok (p', r)) :
    r.cols = p.past ∧ (∃ z, computeLogwLogz p.past (fin 1) = .ok (r.logw, z)) ∧ p'.past = p.past := by
  unfold Particles.computeResults at h
  rw [hnone] at h
  simp only [bind, Except.bind, pure, Except.pure] at h
  cases hc : computeLogwLogz p.past (fin 1) with
  | error e => rw [hc] at h; simp at h
  | ok v =>
    rw [hc] at h
    simp only [Except.ok.injEq, Prod.mk.injEq] at h
    obtain ⟨rfl, rfl⟩ := h
    exact ⟨rfl, ⟨v.2, rfl⟩, rfl⟩

/-- **C19 is false as stated**: once `results` has been read, every later access returns the same dictionary, however
many iterations are stored in between. -/
theorem C19_results_stale (p p' : Particles d B) (r : Results d B) (h : p.computeResults = .ok (p', r))
    (more : List (Cols d B Option)) :
    ∃ p'', (more.foldl Particles.update p').computeResults = .ok (p'', r) := by
  have hc : p'.resultsDict = some r := by
    unfold Particles.computeResults at h
    cases hd : p.resultsDict with
    | some r0 =>
      rw [hd] at h
      simp only [Except.ok.injEq, Prod.mk.injEq] at h
      obtain ⟨rfl, rfl⟩ := h
      exact hd
    | none =>
      rw [hd] at h
      simp only [bind, Except.bind, pure, Except.pure] at h
      cases hx : computeLogwLogz p.past (fin 1) with
      | error e => rw [hx] at h; simp at h
      | ok v =>
        rw [hx] at h
        simp only [Except.ok.injEq, Prod.mk.injEq] at h
        obtain ⟨rfl, rfl⟩ := h
        rfl
  have hk : (more.foldl Particles.update p').resultsDict = some r := by
    clear h
    induction more generalizing p' with
    | nil => exact hc
    | cons a t ih => exact ih (p'.update a) hc
  exact ⟨_, by unfold Particles.computeResults; rw [hk]⟩

/-- The hypothesis of both C19 theorems is met: `results` of a store holding the example history succeeds. -/
example : ∃ p' r, (⟨pastOf exampleStages, none⟩ : Particles 1 Unit).computeResults = .ok (p', r) := by
  have := computeLogwLogz_fin (pastOf exampleStages) exampleStages 2 exampleStages_rect (pastOf_holds _) 1 true
  unfold Particles.computeResults
  simp only [this, bind, Except.bind, pure, Except.pure]
  exact ⟨_, _, rfl⟩

/-! ### C20 -/

theorem logaddexp_nan_left (y : F) : logaddexp nan y = nan := by
  unfold logaddexp
  have : ¬ feq nan y := by cases y <;> exact id
  simp [this]

theorem logaddexp_nan_right (x : F) : logaddexp x nan = nan := by
  unfold logaddexp
  have : ¬ feq x nan := by cases x <;> exact id
  simp [this]

theorem foldl_logaddexp_nan (l : List F) : l.foldl logaddexp nan = nan := by
  induction l with
  | nil => rfl
  | cons a l ih => rw [List.foldl_cons, logaddexp_nan_left, ih]

theorem lse_nan {l : List F} (h : nan ∈ l) : lse l = nan := by
  unfold lse
  generalize ninf = a
  induction l generalizing a with
  | nil => simp at h
  | cons b l ih =>
    rw [List.foldl_cons]
    rcases List.mem_cons.mp h with hb | hb
    · rw [← hb, logaddexp_nan_right, foldl_logaddexp_nan]
    · exact ih hb _

/-- **C20 is false as stated**, for every history: one NaN log-likelihood anywhere makes every normalised weight and
the log-evidence NaN. -/
theorem C20_nan_poisons (past : Cols d B List) (β : F) (hnan : nan ∈ past.logl.flatten) (logw : List F) (z : F)
    (h : computeLogwLogz past β = .ok (logw, z)) : z = nan ∧ ∀ w ∈ logw, w = nan := by
  unfold computeLogwLogz at h
  split at h
  · cases h
  split at h
  · cases h
  split at h
  · cases h
  simp only [if_true, Except.ok.injEq, Prod.mk.injEq] at h
  have hl : lse (past.logl.flatten.map fun l => l * β - mixDenom past.beta past.logz l) = nan := by
    apply lse_nan
    rw [List.mem_map]
    exact ⟨nan, hnan, by simp⟩
  rw [hl] at h
  obtain ⟨h1, h2⟩ := h
  constructor
  · rw [← h2]; simp
  · rw [← h1]
    intro w hw
    obtain ⟨x, -, rfl⟩ := List.mem_map.mp hw
    simp

/-- **C20** (partial): the *unnormalised* weight of a particle depends only on its own log-likelihood and on the stored
temperatures and evidences, so a NaN elsewhere cannot change it.  Missing: the normalised weights and the evidence,
for which the property is false (`C20_nan_poisons`). -/
theorem C20_raw_weights_local_partial (past past' : Cols d B List) (β : F) (hb : past.beta = past'.beta)
    (hz : past.logz = past'.logz) (logw logw' : List F) (z z' : F)
    (h : computeLogwLogz past β false = .ok (logw, z)) (h' : computeLogwLogz past' β false = .ok (logw', z'))
    (k : ℕ) (hk : past.logl.flatten[k]? = past'.logl.flatten[k]?) : logw[k]? = logw'[k]? := by
  have key : ∀ (p : Cols d B List) (lw : List F) (z : F), computeLogwLogz p β false = .ok (lw, z) →
      lw = p.logl.flatten.map fun l => l * β - mixDenom p.beta p.logz l := by
    intro p lw z h
    unfold computeLogwLogz at h
    split at h
    · cases h
    split at h
    · cases h
    split at h
    · cases h
    simp only [Bool.false_eq_true, if_false, Except.ok.injEq, Prod.mk.injEq] at h
    exact h.1.symm
  rw [key _ _ _ h, key _ _ _ h', List.getElem?_map, List.getElem?_map, hk, hb, hz]

/-- A history with a NaN for which the weights are computed (hypotheses of C20). -/
example : ∃ logw z, computeLogwLogz ({ pastOf exampleStages with logl := [[nan, fin 1], [fin 0, fin 2]] }) (fin 1)
    = .ok (logw, z) := by
  unfold computeLogwLogz
  rw [if_neg (by simp), if_neg (by simp [pastOf]), if_neg (by simp)]
  exact ⟨_, _, rfl⟩

end Poco
