import Verif.Model.Mcmc
import Verif.Lemmas.Scaler
import Mathlib.Tactic.NormNum

/-! Lemmas about the MCMC kernels. -/

namespace Poco
open F Spec

variable {d : ℕ} {B : Type}

/-! ### masks -/

theorem maskSelect_filter {α β γ : Type} (m : α → Bool) (g : α → β) (cs : List α) :
    maskSelect (cs.map m) (cs.map g) = (cs.filter m).map g := by
  induction cs with
  | nil => rfl
  | cons c cs ih =>
    unfold maskSelect at *
    simp only [List.map_cons, List.zip_cons_cons]
    cases h : m c <;> simp [h, ih]

theorem scatter_map {α β : Type} (dflt : β) (m : α → Bool) (f : α → β) (cs : List α) :
    scatter dflt (cs.map m) ((cs.filter m).map f) = .ok (cs.map fun c => if m c then f c else dflt) := by
  induction cs with
  | nil => rfl
  | cons c cs ih =>
    cases h : m c with
    | false => simp [h, scatter, ih, Except.map]
    | true => simp [h, scatter, ih, Except.map]

theorem scatter_ok {α : Type} {dflt : α} {mask : List Bool} {vals out : List α}
    (h : scatter dflt mask vals = .ok out) :
    out.length = mask.length ∧ ∀ k : ℕ, mask[k]? = some false → out[k]? = some dflt := by
  induction mask generalizing vals out with
  | nil =>
    cases vals with
    | nil => simp only [scatter, Except.ok.injEq] at h; subst h; simp
    | cons _ _ => simp [scatter] at h
  | cons b mask ih =>
    have key : ∀ (v : α) (vs : List α), (scatter dflt mask vs).map (v :: ·) = .ok out →
        ∃ out', out = v :: out' ∧ scatter dflt mask vs = .ok out' := by
      intro v vs hh
      cases hs : scatter dflt mask vs with
      | error x => rw [hs] at hh; simp [Except.map] at hh
      | ok o => rw [hs] at hh; simp only [Except.map, Except.ok.injEq] at hh; exact ⟨o, hh.symm, rfl⟩
    cases b with
    | false =>
      obtain ⟨out', rfl, ho⟩ := key dflt vals h
      obtain ⟨h1, h2⟩ := ih ho
      refine ⟨by simp [h1], fun k hk => ?_⟩
      cases k with
      | zero => simp
      | succ k => simpa using h2 k (by simpa using hk)
    | true =>
      cases vals with
      | nil => simp [scatter] at h
      | cons v vs =>
        obtain ⟨out', rfl, ho⟩ := key v vs h
        obtain ⟨h1, h2⟩ := ih ho
        refine ⟨by simp [h1], fun k hk => ?_⟩
        cases k with
        | zero => simp at hk
        | succ k => simpa using h2 k (by simpa using hk)

/-! ### acceptance probability -/

/-- NaN or `-inf`. -/
def Bad (a : F) : Prop := a = nan ∨ a = ninf

theorem Bad.add {a : F} (h : Bad a) (b : F) : Bad (a + b) := by
  rcases h with rfl | rfl
  · left; simp
  · cases b
    · left; rfl
    · right; rfl
    · left; rfl
    · right; rfl

theorem Bad.sub {a : F} (h : Bad a) (b : F) : Bad (a - b) := by rw [sub_def]; exact h.add _

theorem Bad.mul {a : F} (h : Bad a) (b : ℝ) (hb : 0 ≤ b) : Bad (a * fin b) := by
  rcases h with rfl | rfl
  · left; simp
  · show Bad (infMul (-b))
    unfold infMul
    rcases hb.eq_or_lt with rfl | hb
    · left; simp
    · right; rw [if_neg (by linarith), if_neg (by linarith)]

theorem metropolisExponent_bad (e : McmcEnv d B) (b : ℝ) (hβ : e.beta = fin b) (hb : 0 ≤ b) (mu : Pt d)
    (w p : Walker d B) (hp : Bad p.logl) : Bad (metropolisExponent e mu w p) := by
  unfold metropolisExponent
  rw [hβ]
  have h0 : Bad (p.logl * fin b - w.logl * fin b + p.logp - w.logp + p.logdetj - w.logdetj) :=
    ((((hp.mul b hb).sub _).add _ |>.sub _).add _).sub _
  cases e.kernel with
  | ppcn => exact (((h0.add _).sub _).sub _).add _
  | prwm => exact (h0.add _).sub _
  | pcn => exact (h0.sub _).add _
  | rwm => exact h0

theorem alpha_bad (e : McmcEnv d B) (b : ℝ) (hβ : e.beta = fin b) (hb : 0 ≤ b) (mu : Pt d)
    (w p : Walker d B) (hp : Bad p.logl) : alpha e mu w p = fin 0 := by
  unfold alpha
  rcases metropolisExponent_bad e b hβ hb mu w p hp with h | h
  · simp [h, minimum]
  · simp [h]

/-- The acceptance probability is a number between 0 and 1, whatever the inputs. -/
theorem alpha_range (e : McmcEnv d B) (mu : Pt d) (w p : Walker d B) : ∃ a : ℝ, alpha e mu w p = fin a ∧ 0 ≤ a ∧ a ≤ 1 := by
  unfold alpha
  cases metropolisExponent e mu w p with
  | nan => exact ⟨0, by simp [minimum], le_refl _, zero_le_one⟩
  | ninf => exact ⟨0, by simp, le_refl _, zero_le_one⟩
  | pinf => exact ⟨1, by simp [minimum], zero_le_one, le_refl _⟩
  | fin r => exact ⟨min 1 (Real.exp r), by simp, le_min zero_le_one (Real.exp_pos r).le, min_le_left _ _⟩

/-! ### evaluation of a batch -/

theorem bind_ok {α β : Type} {a : Except PyErr α} {f : α → Except PyErr β} {b : β}
    (h : (a >>= f) = .ok b) : ∃ x, a = .ok x ∧ f x = .ok b := by
  cases a with
  | error e => simp [bind, Except.bind] at h
  | ok x => exact ⟨x, rfl, h⟩

theorem mapM_eq_ok {α β : Type} {f : α → Except PyErr β} {l : List α} {r : List β} (h : l.mapM f = .ok r) :
    r.length = l.length ∧ ∀ (k : ℕ) (a : α), l[k]? = some a → ∃ b, r[k]? = some b ∧ f a = .ok b := by
  induction l generalizing r with
  | nil => simp [pure, Except.pure] at h; subst h; simp
  | cons a l ih =>
    rw [List.mapM_cons] at h
    obtain ⟨b, hb, h⟩ := bind_ok h
    obtain ⟨bs, hbs, h⟩ := bind_ok h
    simp only [pure, Except.pure, Except.ok.injEq] at h
    subst h
    obtain ⟨h1, h2⟩ := ih hbs
    refine ⟨by simp [h1], fun k a' hk => ?_⟩
    cases k with
    | zero =>
      simp only [List.getElem?_cons_zero, Option.some.injEq] at hk
      subst hk
      exact ⟨b, by simp, hb⟩
    | succ k => simpa using h2 k a' (by simpa using hk)

theorem scatterBlobs_length {hb : Bool} {bl : Option (List B)} {mask : List Bool} {out : List (Option B)}
    (h : scatterBlobs hb bl mask = .ok out) : out.length = mask.length := by
  unfold scatterBlobs at h
  cases hb with
  | false => simp only [Bool.false_eq_true, if_false, Except.ok.injEq] at h; subst h; simp
  | true =>
    simp only [if_true] at h
    cases bl with
    | some b => exact (scatter_ok h).1
    | none =>
      simp only at h
      split at h
      · simp only [Except.ok.injEq] at h; subst h; simp
      · simp at h

/-- What `evaluate` guarantees whatever the prior and likelihood functions do: a proposal that fails a finiteness test
has log-likelihood `-inf`; everything but prior, likelihood and blob comes from the candidate. -/
theorem evaluate_ok (e : McmcEnv d B) (cands : List (Walker d B)) (full : List (Walker d B)) (ev : List (Pt d)) (n : ℕ)
    (h : evaluate e cands = .ok (full, ev, n)) :
    full.length = cands.length ∧ ∀ (k : ℕ) (p : Walker d B), full[k]? = some p →
      ∃ c, cands[k]? = some c ∧ p = { c with logl := p.logl, logp := p.logp, blob := p.blob } ∧
        ((finiteMask c && p.logp.isfinite) = false → p.logl = ninf) := by
  unfold evaluate at h
  obtain ⟨logp, h1, h⟩ := bind_ok h
  obtain ⟨⟨ll, bl⟩, h2, h⟩ := bind_ok h
  obtain ⟨logl, h3, h⟩ := bind_ok h
  obtain ⟨blobs, h4, h⟩ := bind_ok h
  simp only [pure, Except.pure, Except.ok.injEq, Prod.mk.injEq] at h
  obtain ⟨rfl, -, -⟩ := h
  obtain ⟨l1, -⟩ := scatter_ok h1
  obtain ⟨l3, k3⟩ := scatter_ok h3
  have lm : (List.zipWith (fun m lp => m && F.isfinite lp) (cands.map finiteMask) logp).length = cands.length := by
    simp [l1]
  have l4 : blobs.length = cands.length := by
    rw [scatterBlobs_length h4, lm]
  rw [lm] at l3
  rw [List.length_map] at l1
  refine ⟨by simp [l1, l3, l4], fun k p hp => ?_⟩
  rw [List.getElem?_zipWith] at hp
  cases hc : cands[k]? with
  | none => simp [hc] at hp
  | some c =>
    rw [hc] at hp
    cases hz : (logl.zip (logp.zip blobs))[k]? with
    | none => simp [hz] at hp
    | some v =>
      rw [hz] at hp
      simp only [Option.some.injEq] at hp
      rw [List.getElem?_zip_eq_some] at hz
      obtain ⟨z1, z2⟩ := hz
      rw [List.getElem?_zip_eq_some] at z2
      obtain ⟨z2, z3⟩ := z2
      subst hp
      refine ⟨c, rfl, rfl, fun hm => ?_⟩
      have := k3 k (by
        rw [List.getElem?_zipWith, List.getElem?_map, hc, z2]
        simpa using hm)
      rw [z1] at this
      simpa using this

/-- The log-prior and log-likelihood functions given to a kernel act on each row alone. -/
structure RowWise (e : McmcEnv d B) (ll lp : Pt d → F) (bb : Pt d → B) : Prop where
  prior : ∀ xs, e.logPrior xs = xs.map lp
  like : ∀ xs, ∃ bl, e.logLike xs = .ok (xs.map ll, bl) ∧ (e.haveBlobs = true → xs ≠ [] → bl = some (xs.map bb)) ∧
    (e.haveBlobs = true → xs = [] → bl = none ∨ bl = some [])

/-- Is the candidate worth a likelihood call? -/
def validMask (lp : Pt d → F) (c : Walker d B) : Bool := finiteMask c && (lp c.x).isfinite

theorem zipWith_mask {α : Type} (cs : List α) (m : α → Bool) (q : α → F) :
    List.zipWith (fun m lp => m && F.isfinite lp) (cs.map m) (cs.map fun c => if m c then q c else ninf)
      = cs.map fun c => m c && (q c).isfinite := by
  induction cs with
  | nil => rfl
  | cons c cs ih =>
    simp only [List.map_cons, List.zipWith_cons_cons, ih]
    cases m c <;> simp

/-- `evaluate` with row-wise prior and likelihood, computed. -/
theorem evaluate_rowwise (e : McmcEnv d B) (ll lp : Pt d → F) (bb : Pt d → B) (h : RowWise e ll lp bb)
    (cands : List (Walker d B)) :
    evaluate e cands = .ok (cands.map fun c =>
        { c with logl := if validMask lp c then ll c.x else ninf
                 logp := if finiteMask c then lp c.x else ninf
                 blob := if e.haveBlobs && validMask lp c then some (bb c.x) else none },
      (cands.filter (validMask lp)).map (·.x), (cands.filter (validMask lp)).length) := by
  have e1 : maskSelect (cands.map finiteMask) (cands.map (·.x)) = (cands.filter finiteMask).map (·.x) :=
    maskSelect_filter (γ := Unit) _ _ _
  have e2 : (e.logPrior ((cands.filter finiteMask).map (·.x))) = (cands.filter finiteMask).map fun c => lp c.x := by
    rw [h.prior, List.map_map]; rfl
  have e4 : maskSelect (cands.map (validMask lp)) (cands.map (·.x)) = (cands.filter (validMask lp)).map (·.x) :=
    maskSelect_filter (γ := Unit) _ _ _
  obtain ⟨bl, hl, hb1, hb2⟩ := h.like ((cands.filter (validMask lp)).map (·.x))
  have e5 : scatter ninf (cands.map (validMask lp)) (((cands.filter (validMask lp)).map (·.x)).map ll)
      = .ok (cands.map fun c => if validMask lp c then ll c.x else ninf) := by
    rw [List.map_map]; exact scatter_map _ _ _ _
  have ecount : (cands.map (validMask lp)).count true = (cands.filter (validMask lp)).length := by
    rw [List.count, List.countP_map, List.countP_eq_length_filter]
    congr 2
    funext c
    simp [Function.comp]
  have efull : ∀ blobs : List (Option B), blobs = cands.map (fun c => if e.haveBlobs && validMask lp c then
      some (bb c.x) else none) →
      List.zipWith (fun c (v : F × F × Option B) => { c with logl := v.1, logp := v.2.1, blob := v.2.2 })
        cands ((cands.map fun c => if validMask lp c then ll c.x else ninf).zip
          ((cands.map fun c => if finiteMask c then lp c.x else ninf).zip blobs))
      = cands.map fun c => { c with logl := if validMask lp c then ll c.x else ninf
                                    logp := if finiteMask c then lp c.x else ninf
                                    blob := if e.haveBlobs && validMask lp c then some (bb c.x) else none } := by
    rintro _ rfl
    clear hl hb1 hb2 e1 e2 e4 e5 ecount
    induction cands with
    | nil => rfl
    | cons c cs ih => simp only [List.map_cons, List.zip_cons_cons, List.zipWith_cons_cons, ih]
  have eb : scatterBlobs e.haveBlobs bl (cands.map (validMask lp))
      = .ok (cands.map fun c => if e.haveBlobs && validMask lp c then some (bb c.x) else none) := by
    unfold scatterBlobs
    clear efull
    cases hh : e.haveBlobs with
    | false => simp [Function.comp_def]
    | true =>
      simp only [if_true, Bool.true_and]
      by_cases hne : ((cands.filter (validMask lp)).map (·.x)) = []
      · have hf : cands.filter (validMask lp) = [] := by simpa using hne
        have hz : (cands.map fun c => if validMask lp c then some (bb c.x) else none) = cands.map fun _ => none := by
          apply List.map_congr_left
          intro c hc
          have : validMask lp c = false := by
            rw [List.filter_eq_nil_iff] at hf
            simpa using hf c hc
          simp [this]
        rcases hb2 hh hne with rfl | rfl
        · simp only [ecount, hf, List.length_nil, if_true, hz, List.map_map]
          rfl
        · simp only [List.map_nil]
          have := scatter_map (none : Option B) (validMask lp) (fun c => some (bb c.x)) cands
          rw [hf] at this
          simpa using this
      · rw [hb1 hh hne]
        simp only [List.map_map]
        exact scatter_map (none : Option B) (validMask lp) (fun c => some (bb c.x)) cands
  have ez : List.zipWith (fun m lp => m && F.isfinite lp) (cands.map finiteMask)
      (cands.map fun c => if finiteMask c then lp c.x else ninf) = cands.map (validMask lp) :=
    zipWith_mask cands finiteMask (fun c => lp c.x)
  unfold evaluate
  simp only [e1, e2, scatter_map]
  simp only [bind, Except.bind]
  rw [ez, e4, hl]
  simp only [e5]
  simp only [eb, pure, Except.pure]
  rw [efull _ rfl, ecount]

/-! ### steps and loops -/

/-- Inversion of one step. -/
theorem mcmcStep_ok {e : McmcEnv d B} {fuel : ℕ} {rnd : ℕ → Draw d} {i : ℕ} {st st' : McmcState d B}
    (h : mcmcStep e fuel rnd i st = .ok st') :
    ∃ cands props ev n, (st.walkers.mapIdx fun k w => propose e st.sigma st.mu w (rnd k)).mapM (candidate e fuel)
        = .ok cands ∧ evaluate e cands = .ok (props, ev, n) ∧
      st'.walkers = (st.walkers.zip props).mapIdx
        (fun k q => if (rnd k).rand < alpha e st.mu q.1 q.2 then q.2 else q.1) ∧
      st'.accept = mean ((st.walkers.zip props).map fun q => alpha e st.mu q.1 q.2) ∧
      st'.sigma = sigmaNext e.kernel d i st.sigma st'.accept ∧
      st'.mu = muNext e.kernel i st.mu st'.walkers ∧
      st'.calls = st.calls + n ∧ st'.evaluated = st.evaluated ++ ev := by
  unfold mcmcStep at h
  obtain ⟨cands, h1, h⟩ := bind_ok h
  obtain ⟨⟨props, ev, n⟩, h2, h⟩ := bind_ok h
  refine ⟨cands, props, ev, n, h1, h2, ?_⟩
  simp only at h
  split at h <;> simp only [pure, Except.pure, Except.ok.injEq] at h <;> subst h <;> simp

/-- Induction over the loop. -/
theorem mcmcLoop_ind {e : McmcEnv d B} {fuel : ℕ} {rnd : ℕ → ℕ → Draw d} (P : McmcState d B → Prop)
    (hstep : ∀ i st st', P st → mcmcStep e fuel (rnd (i + 1)) (i + 1) st = .ok st' → P st')
    {i : ℕ} {st : McmcState d B} (h0 : P st) {st' : McmcState d B} {n : ℕ}
    (h : mcmcLoop e fuel rnd i st = .ok (st', n)) : P st' := by
  fun_induction mcmcLoop e fuel rnd i st with
  | case1 i st x hs => simp at h
  | case2 i st st1 hs hstop =>
    simp only [Except.ok.injEq, Prod.mk.injEq] at h
    obtain ⟨rfl, -⟩ := h
    exact hstep _ _ _ h0 hs
  | case3 i st st1 hs hstop hn =>
    simp only [Except.ok.injEq, Prod.mk.injEq] at h
    obtain ⟨rfl, -⟩ := h
    exact hstep _ _ _ h0 hs
  | case4 i st st1 hs hstop hn ih => exact ih (hstep _ _ _ h0 hs) h

theorem mcmc_ok {e : McmcEnv d B} {fuel : ℕ} {rnd : ℕ → ℕ → Draw d} {ws : List (Walker d B)} {r : McmcResult d B}
    (h : mcmc e fuel rnd ws = .ok r) : ∃ st, mcmcLoop e fuel rnd 0 (mcmcInit e ws) = .ok (st, r.steps) ∧
      r.walkers = st.walkers ∧ r.efficiency = st.sigma ∧ r.accept = st.accept ∧ r.calls = st.calls ∧
      r.proposalScale = st.sigma ∧ r.evaluated = st.evaluated := by
  unfold mcmc at h
  cases hl : mcmcLoop e fuel rnd 0 (mcmcInit e ws) with
  | error x => rw [hl] at h; simp at h
  | ok q =>
    obtain ⟨st, i⟩ := q
    rw [hl] at h
    simp only [Except.ok.injEq] at h
    subst h
    exact ⟨st, rfl, rfl, rfl, rfl, rfl, rfl, rfl⟩

end Poco
