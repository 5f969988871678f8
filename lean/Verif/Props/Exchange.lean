import Mathlib.Data.List.Perm.Basic
import Verif.Props.Mcmc
import Verif.Spec.Exchange

/-! C140: the MCMC kernels treat the walkers alike. -/

namespace Poco
open F Spec

variable {d : ℕ} {B : Type}

namespace Spec.Reordered

variable {α β : Type} {σ : Equiv.Perm ℕ} {l l' : List α}

theorem lt_iff (h : Reordered σ l l') (k : ℕ) : k < l'.length ↔ σ k < l.length := by
  have := h k
  constructor
  · intro hk
    rw [List.getElem?_eq_getElem hk] at this
    exact (List.getElem?_eq_some_iff.1 this.symm).1
  · intro hk
    rw [List.getElem?_eq_getElem hk] at this
    exact (List.getElem?_eq_some_iff.1 this).1

theorem index_perm (h : Reordered σ l l') : ((List.range l'.length).map σ).Perm (List.range l.length) := by
  rw [List.perm_ext_iff_of_nodup (List.nodup_range.map σ.injective) List.nodup_range]
  intro a
  simp only [List.mem_map, List.mem_range]
  constructor
  · rintro ⟨k, hk, rfl⟩
    exact (h.lt_iff k).1 hk
  · intro ha
    exact ⟨σ.symm a, (h.lt_iff _).2 (by simpa using ha), by simp⟩

theorem length_eq (h : Reordered σ l l') : l'.length = l.length := by
  have := h.index_perm.length_eq
  simpa using this

theorem perm (h : Reordered σ l l') : l'.Perm l := by
  cases l with
  | nil =>
    have : l' = [] := List.length_eq_zero_iff.1 (by simpa using h.length_eq)
    rw [this]
  | cons a t =>
    have e1 : a :: t = (List.range (a :: t).length).map fun k => (a :: t).getD k a := by
      apply List.ext_getElem (by simp)
      intro i h1 h2
      simp only [List.getElem_map, List.getElem_range, List.getD_eq_getElem?_getD, List.getElem?_eq_getElem h1, Option.getD_some]
    have e2 : l' = ((List.range l'.length).map σ).map fun k => (a :: t).getD k a := by
      apply List.ext_getElem (by simp)
      intro i h1 h2
      simp only [List.getElem_map, List.getElem_range, List.getD_eq_getElem?_getD, ← h i, List.getElem?_eq_getElem h1,
        Option.getD_some]
    rw [e2]
    conv_rhs => rw [e1]
    exact h.index_perm.map _

theorem map (h : Reordered σ l l') (f : α → β) : Reordered σ (l.map f) (l'.map f) := by
  intro k
  rw [List.getElem?_map, List.getElem?_map, h k]

theorem mapIdx (h : Reordered σ l l') (f : ℕ → α → β) : Reordered σ (l.mapIdx f) (l'.mapIdx fun k => f (σ k)) := by
  intro k
  rw [List.getElem?_mapIdx, List.getElem?_mapIdx, h k]

theorem zip {m m' : List β} (h : Reordered σ l l') (g : Reordered σ m m') : Reordered σ (l.zip m) (l'.zip m') := by
  intro k
  simp only [List.zip, List.getElem?_zipWith, h k, g k]

theorem mapM {f : α → Except PyErr β} {r : List β} (h : Reordered σ l l') (hr : l.mapM f = .ok r) :
    ∃ r', l'.mapM f = .ok r' ∧ Reordered σ r r' := by
  obtain ⟨h1, h2⟩ := mapM_eq_ok hr
  have hall : ∀ a ∈ l', ∃ b, f a = .ok b := by
    intro a ha
    obtain ⟨k, hk⟩ := List.mem_iff_getElem?.1 ((h.perm.mem_iff).1 ha)
    obtain ⟨b, -, hb⟩ := h2 k a hk
    exact ⟨b, hb⟩
  have hex : ∀ m : List α, (∀ a ∈ m, ∃ b, f a = .ok b) → ∃ r', m.mapM f = .ok r' := by
    intro m
    induction m with
    | nil => intro _; exact ⟨[], rfl⟩
    | cons a m ih =>
      intro hm
      obtain ⟨b, hb⟩ := hm a (by simp)
      obtain ⟨r, hr⟩ := ih fun x hx => hm x (by simp [hx])
      exact ⟨b :: r, by rw [List.mapM_cons, hb, hr]; rfl⟩
  obtain ⟨r', hr'⟩ := hex l' hall
  obtain ⟨g1, g2⟩ := mapM_eq_ok hr'
  refine ⟨r', hr', fun k => ?_⟩
  cases hk : l'[k]? with
  | none =>
    have hk' := h k
    rw [hk] at hk'
    rw [List.getElem?_eq_none_iff] at hk
    rw [List.getElem?_eq_none (by omega)]
    rw [eq_comm, List.getElem?_eq_none_iff] at hk'
    rw [List.getElem?_eq_none (by omega)]
  | some a =>
    obtain ⟨b, hb, hf⟩ := g2 k a hk
    obtain ⟨b', hb', hf'⟩ := h2 (σ k) a (by rw [← h k, hk])
    rw [hb, hb']
    rw [hf] at hf'
    cases hf'
    rfl

end Spec.Reordered

theorem mean_perm {l l' : List F} (h : l'.Perm l) : mean l' = mean l := by
  unfold mean
  rw [F.sum_eq, F.sum_eq, h.sum_eq, h.length_eq]

/-- The loop variables of the two calls. -/
def Shuffled (σ : Equiv.Perm ℕ) (st st' : McmcState d B) : Prop :=
  Reordered σ st.walkers st'.walkers ∧ st'.evaluated.Perm st.evaluated ∧
    st' = { st with walkers := st'.walkers, evaluated := st'.evaluated }

theorem mcmcStep_shuffled {e : McmcEnv d B} {ll lp : Pt d → F} {bb : Pt d → B} (hrow : RowWise e ll lp bb) {fuel : ℕ}
    {rnd : ℕ → Draw d} {i : ℕ} {σ : Equiv.Perm ℕ} {st st' r : McmcState d B} (h : Shuffled σ st st')
    (hr : mcmcStep e fuel rnd i st = .ok r) :
    ∃ r', mcmcStep e fuel (fun k => rnd (σ k)) i st' = .ok r' ∧ Shuffled σ r r' := by
  obtain ⟨ws', ev', h1, h2, rfl⟩ : ∃ ws' ev', Reordered σ st.walkers ws' ∧ ev'.Perm st.evaluated ∧
      st' = { st with walkers := ws', evaluated := ev' } := ⟨_, _, h.1, h.2.1, h.2.2⟩
  unfold mcmcStep at hr ⊢
  obtain ⟨cands, hc, hr⟩ := bind_ok hr
  obtain ⟨cands', hc', hcr⟩ := (h1.mapIdx fun k w => propose e st.sigma st.mu w (rnd k)).mapM hc
  rw [evaluate_rowwise e ll lp bb hrow] at hr
  dsimp only
  rw [hc']
  simp only [bind, Except.bind, evaluate_rowwise e ll lp bb hrow] at hr ⊢
  have hp := hcr.map fun c : Walker d B =>
    { c with logl := if validMask lp c then ll c.x else ninf
             logp := if finiteMask c then lp c.x else ninf
             blob := if e.haveBlobs && validMask lp c then some (bb c.x) else none }
  generalize (cands.map fun c : Walker d B =>
    { c with logl := if validMask lp c then ll c.x else ninf
             logp := if finiteMask c then lp c.x else ninf
             blob := if e.haveBlobs && validMask lp c then some (bb c.x) else none }) = props at hp hr
  generalize (cands'.map fun c : Walker d B =>
    { c with logl := if validMask lp c then ll c.x else ninf
             logp := if finiteMask c then lp c.x else ninf
             blob := if e.haveBlobs && validMask lp c then some (bb c.x) else none }) = props' at hp ⊢
  have hz := h1.zip hp
  have ha := mean_perm (hz.map fun q => alpha e st.mu q.1 q.2).perm
  have hw := hz.mapIdx fun k q => if (rnd k).rand < alpha e st.mu q.1 q.2 then q.2 else q.1
  generalize ((st.walkers.zip props).mapIdx fun k q => if (rnd k).rand < alpha e st.mu q.1 q.2 then q.2 else q.1) = new at hw hr
  generalize ((ws'.zip props').mapIdx fun k q => if (rnd (σ k)).rand < alpha e st.mu q.1 q.2 then q.2 else q.1) = new' at hw ⊢
  have hm : monitor e.kernel new' = monitor e.kernel new := by
    unfold monitor
    exact mean_perm (hw.map _).perm
  have hmu : muNext e.kernel i st.mu new' = muNext e.kernel i st.mu new := by
    unfold muNext
    split
    · funext j
      rw [mean_perm (hw.map fun w => w.theta j).perm]
    · rfl
  have hv : ((cands'.filter (validMask lp)).map (·.x)).Perm ((cands.filter (validMask lp)).map (·.x)) :=
    (hcr.perm.filter _).map _
  have hn : (cands'.filter (validMask lp)).length = (cands.filter (validMask lp)).length := (hcr.perm.filter _).length_eq
  rw [ha, hm, hmu, hn]
  split_ifs at hr ⊢ with hb
  · simp only [pure, Except.pure, Except.ok.injEq] at hr
    subst hr
    exact ⟨_, rfl, hw, h2.append hv, rfl⟩
  · simp only [pure, Except.pure, Except.ok.injEq] at hr
    subst hr
    exact ⟨_, rfl, hw, h2.append hv, rfl⟩

theorem mcmcLoop_shuffled {e : McmcEnv d B} {ll lp : Pt d → F} {bb : Pt d → B} (hrow : RowWise e ll lp bb) {fuel : ℕ}
    {rnd : ℕ → ℕ → Draw d} {σ : Equiv.Perm ℕ} (m : ℕ) : ∀ {i : ℕ} {st st' : McmcState d B} {r : McmcState d B × ℕ}, e.nMax - i = m →
    Shuffled σ st st' → mcmcLoop e fuel rnd i st = .ok r →
    ∃ r', mcmcLoop e fuel (reorderedDraws σ rnd) i st' = .ok (r', r.2) ∧ Shuffled σ r.1 r' := by
  induction m using Nat.strong_induction_on with
  | _ m ih =>
    intro i st st' r hm h hr
    rw [mcmcLoop] at hr ⊢
    cases hs : mcmcStep e fuel (rnd (i + 1)) (i + 1) st with
    | error x => rw [hs] at hr; cases hr
    | ok s1 =>
      obtain ⟨s1', hs', h'⟩ := mcmcStep_shuffled hrow h hs
      have hs'' : mcmcStep e fuel (reorderedDraws σ rnd (i + 1)) (i + 1) st' = .ok s1' := hs'
      have hstop : s1'.stop = s1.stop := by rw [h'.2.2]
      rw [hs] at hr
      rw [hs'']
      dsimp only at hr ⊢
      rw [hstop]
      split_ifs at hr ⊢ with c1 c2
      · cases hr; exact ⟨s1', rfl, h'⟩
      · cases hr; exact ⟨s1', rfl, h'⟩
      · exact ih (e.nMax - (i + 1)) (by omega) rfl h' hr

/-- C140.  The MCMC phase treats the walkers alike: given the same walkers in another order, each with its own random numbers,
it makes the same number of steps and of likelihood calls, returns every walker at its new place, and the same mean
acceptance, efficiency and adapted scale; the likelihood is evaluated at the same points, as often.  For the four kernels, any
prior and likelihood that judge each point by itself, any boundary conditions, NaN and infinities included. -/
theorem C140_walkers_alike (e : McmcEnv d B) (ll lp : Pt d → F) (bb : Pt d → B) (hrow : RowWise e ll lp bb) (fuel : ℕ)
    (rnd : ℕ → ℕ → Draw d) (σ : Equiv.Perm ℕ) (ws ws' : List (Walker d B)) (hws : Reordered σ ws ws') (r : McmcResult d B)
    (h : mcmc e fuel rnd ws = .ok r) :
    ∃ r', mcmc e fuel (reorderedDraws σ rnd) ws' = .ok r' ∧ Reordered σ r.walkers r'.walkers ∧ r'.steps = r.steps ∧
      r'.calls = r.calls ∧ r'.accept = r.accept ∧ r'.efficiency = r.efficiency ∧ r'.proposalScale = r.proposalScale ∧
      r'.evaluated.Perm r.evaluated := by
  have h0 : Shuffled σ (mcmcInit e ws) (mcmcInit e ws') := by
    have hw := hws.map fun w : Walker d B =>
      if e.kernel.hasFlow then { w with theta := (e.flowFwd w.u).1, logdetjFlow := (e.flowFwd w.u).2 }
      else { w with theta := w.u, logdetjFlow := fin 0 }
    refine ⟨hw, List.Perm.refl _, ?_⟩
    unfold mcmcInit monitor
    dsimp only
    rw [mean_perm (hw.map _).perm]
  unfold mcmc at h ⊢
  cases hl : mcmcLoop e fuel rnd 0 (mcmcInit e ws) with
  | error x => rw [hl] at h; cases h
  | ok q =>
    obtain ⟨st, i⟩ := q
    rw [hl] at h
    cases h
    obtain ⟨st', hl', g1, g2, g3⟩ := mcmcLoop_shuffled hrow _ rfl h0 hl
    rw [hl']
    refine ⟨_, rfl, g1, rfl, ?_, ?_, ?_, ?_, g2⟩ <;> (dsimp only; rw [g3])

/-- C140 in words of sets: whatever the order of the walkers, the returned set (with multiplicities) is the same. -/
theorem C140_same_set (e : McmcEnv d B) (ll lp : Pt d → F) (bb : Pt d → B) (hrow : RowWise e ll lp bb) (fuel : ℕ)
    (rnd : ℕ → ℕ → Draw d) (σ : Equiv.Perm ℕ) (ws ws' : List (Walker d B)) (hws : Reordered σ ws ws') (r : McmcResult d B)
    (h : mcmc e fuel rnd ws = .ok r) :
    ∃ r', mcmc e fuel (reorderedDraws σ rnd) ws' = .ok r' ∧ r'.walkers.Perm r.walkers := by
  obtain ⟨r', h1, h2, -⟩ := C140_walkers_alike e ll lp bb hrow fuel rnd σ ws ws' hws r h
  exact ⟨r', h1, h2.perm⟩

/-- Every list in every order: the order `σ` that exchanges the places `i` and `j` of a list. -/
theorem C140_exchange {α : Type} (l : List α) (i j : ℕ) (hi : i < l.length) (hj : j < l.length) :
    Reordered (Equiv.swap i j) l ((l.set i l[j]).set j l[i]) := by
  intro k
  rcases eq_or_ne k j with rfl | hkj
  · rw [Equiv.swap_apply_right, List.getElem?_set_self (by simpa using hj), List.getElem?_eq_getElem hi]
  · rw [List.getElem?_set_ne (Ne.symm hkj)]
    rcases eq_or_ne k i with rfl | hki
    · rw [Equiv.swap_apply_left, List.getElem?_set_self hi, List.getElem?_eq_getElem hj]
    · rw [List.getElem?_set_ne (Ne.symm hki), Equiv.swap_apply_of_ne_of_ne hki hkj]

/-- Two walkers exchanged, with the log-likelihood -x²/2, for every kernel and all random numbers. -/
example (k : Kern) (rnd : ℕ → ℕ → Draw 2) : ∃ r r',
    mcmc (exampleEnv k (fun x => -(sq (x 0)) / fin 2) 0.5) 0 rnd
        [exampleWalker (fun x => -(sq (x 0)) / fin 2) 1, exampleWalker (fun x => -(sq (x 0)) / fin 2) (-2)] = .ok r ∧
      mcmc (exampleEnv k (fun x => -(sq (x 0)) / fin 2) 0.5) 0 (fun i k => rnd i (Equiv.swap 0 1 k))
        [exampleWalker (fun x => -(sq (x 0)) / fin 2) (-2), exampleWalker (fun x => -(sq (x 0)) / fin 2) 1] = .ok r' ∧
      r'.walkers[0]? = r.walkers[1]? ∧ r'.walkers[1]? = r.walkers[0]? ∧ r'.accept = r.accept := by
  obtain ⟨r, h1, -⟩ := C28_terminates (exampleEnv k (fun x => -(sq (x 0)) / fin 2) 0.5)
    (exampleEnv_bounds _ _ _) (by simp [exampleEnv]) _ _ _ (exampleEnv_rowwise _ _ _) 0 rnd
    [exampleWalker (fun x => -(sq (x 0)) / fin 2) 1, exampleWalker (fun x => -(sq (x 0)) / fin 2) (-2)]
  obtain ⟨r', h2, h3, -, -, h4, -⟩ := C140_walkers_alike _ _ _ _ (exampleEnv_rowwise _ _ _) 0 rnd (Equiv.swap 0 1) _
    _ (C140_exchange _ 0 1 (by simp) (by simp)) r h1
  refine ⟨r, r', h1, h2, ?_, ?_, h4⟩
  · rw [h3 0, Equiv.swap_apply_left]
  · rw [h3 1, Equiv.swap_apply_right]

end Poco
