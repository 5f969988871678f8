import Verif.Spec.Run
import Verif.Spec.Mcmc
import Verif.Lemmas.Mcmc
import Verif.Props.Reweight
import Verif.Props.LogLike
import Verif.Props.Mcmc
import Verif.Props.Scaler

/-! Lemmas about the pieces of a run. -/

namespace Poco
open F Spec

variable {d : ℕ} {B Φ : Type}

/-! ### the store -/

theorem update_columns (p : Particles d B) (its : List (Iter d B)) (h : p.past = columns its) (it : Iter d B) :
    (p.update (Cols.full it)).past = columns (its ++ [it]) := by
  simp [Particles.update, h, columns, Cols.full]

/-- An iteration whose arrays are `n` particles, each with property `P`. -/
def Spec.HasRows (n : ℕ) (hb : Bool) (P : Row d B → Prop) (it : Iter d B) : Prop :=
  ∃ rows : List (Row d B), rows.length = n ∧ IsRows hb it rows ∧ (∀ r ∈ rows, P r) ∧ List.length it.logw = n

theorem flatten_map_map {α β γ : Type} (l : List α) (f : α → List β) (g : β → γ) :
    (l.map fun a => (f a).map g).flatten = ((l.map f).flatten).map g := by
  rw [List.map_flatten, List.map_map]
  rfl

/-- The flattened history: all particles, in storage order. -/
theorem flat_rows {n : ℕ} {hb : Bool} {P : Row d B → Prop} (its : List (Iter d B)) (hne : its ≠ [])
    (h : ∀ it ∈ its, HasRows n hb P it) :
    ∃ rows : List (Row d B), getFlat (columns its).u = .ok (rows.map (·.u)) ∧ getFlat (columns its).x = .ok (rows.map (·.x)) ∧
      getFlat (columns its).logdetj = .ok (rows.map (·.logdetj)) ∧ getFlat (columns its).logl = .ok (rows.map (·.logl)) ∧
      getFlat (columns its).logp = .ok (rows.map (·.logp)) ∧ (∀ r ∈ rows, P r) ∧ rows.length = its.length * n ∧
      (columns its).blobs = its.map (fun it => it.blobs) ∧
      ∃ rs : List (List (Row d B)), rows = rs.flatten ∧
        its.map (fun it => it.blobs) = rs.map fun l => if hb then some (l.map (·.blob)) else none := by
  have key : ∃ rs : List (List (Row d B)), rs.length = its.length ∧ (∀ l ∈ rs, l.length = n ∧ ∀ r ∈ l, P r) ∧
      its.map (fun it => it.u) = rs.map (fun l => l.map (·.u)) ∧ its.map (fun it => it.x) = rs.map (fun l => l.map (·.x)) ∧
      its.map (fun it => it.logdetj) = rs.map (fun l => l.map (·.logdetj)) ∧
      its.map (fun it => it.logl) = rs.map (fun l => l.map (·.logl)) ∧
      its.map (fun it => it.logp) = rs.map (fun l => l.map (·.logp)) ∧
      its.map (fun it => it.blobs) = rs.map fun l => if hb then some (l.map (·.blob)) else none := by
    clear hne
    induction its with
    | nil => exact ⟨[], by simp⟩
    | cons it its ih =>
      obtain ⟨rs, h0, h1, h2, h3, h4, h5, h6, h7⟩ := ih fun i hi => h i (by simp [hi])
      obtain ⟨rows, k1, k2, k3, -⟩ := h it (by simp)
      refine ⟨rows :: rs, by simp [h0], ?_, ?_, ?_, ?_, ?_, ?_, ?_⟩
      · intro l hl
        rcases List.mem_cons.mp hl with rfl | hl
        · exact ⟨k1, k3⟩
        · exact h1 l hl
      · simp only [List.map_cons, h2, k2.u]
      · simp only [List.map_cons, h3, k2.x]
      · simp only [List.map_cons, h4, k2.logdetj]
      · simp only [List.map_cons, h5, k2.logl]
      · simp only [List.map_cons, h6, k2.logp]
      · simp only [List.map_cons, h7, k2.blobs]
  obtain ⟨rs, h0, h1, h2, h3, h4, h5, h6, h7⟩ := key
  have hrs : rs ≠ [] := by
    rintro rfl
    exact hne (List.length_eq_zero_iff.mp h0.symm)
  have hflat : ∀ {α : Type} (f : Row d B → α), getFlat (rs.map fun l => l.map f) = .ok (rs.flatten.map f) := by
    intro α f
    unfold getFlat
    rw [if_neg (by simpa using hrs), List.map_flatten]
  refine ⟨rs.flatten, ?_, ?_, ?_, ?_, ?_, ?_, ?_, rfl, rs, rfl, h7⟩
  · simp only [columns, h2, hflat]
  · simp only [columns, h3, hflat]
  · simp only [columns, h4, hflat]
  · simp only [columns, h5, hflat]
  · simp only [columns, h6, hflat]
  · intro r hr
    obtain ⟨l, hl, hr⟩ := List.mem_flatten.mp hr
    exact (h1 l hl).2 r hr
  · have : ∀ l ∈ rs, l.length = n := fun l hl => (h1 l hl).1
    rw [← h0]
    clear * - this
    induction rs with
    | nil => simp
    | cons a rs ih =>
      simp only [List.flatten_cons, List.length_append, List.length_cons, ih fun l hl => this l (by simp [hl]),
        this a (by simp)]
      ring

theorem flatBlobs_rows {α β : Type} (rs : List (List α)) (hne : rs ≠ []) (f : α → β) :
    flatBlobs (rs.map fun l => some (l.map f)) = .ok (rs.flatten.map f) := by
  unfold flatBlobs
  rw [if_neg (by simpa using hne)]
  rw [mapM_ok _ (fun o => o.getD [])]
  · simp only [Except.map, Except.ok.injEq, List.map_map, List.map_flatten]
    rfl
  · intro o ho
    obtain ⟨l, -, rfl⟩ := List.mem_map.mp ho
    rfl

/-! ### gather -/

theorem gather_map {α β : Type} (rows : List α) (f : α → β) (idx : List ℕ) :
    gather (rows.map f) idx = (gather rows idx).map (List.map f) := by
  unfold gather
  induction idx with
  | nil => rfl
  | cons i idx ih =>
    rw [List.mapM_cons, List.mapM_cons, ih]
    simp only [List.getElem?_map]
    cases rows[i]? with
    | none => rfl
    | some r =>
      simp only [Option.map_some]
      cases idx.mapM (fun i => match rows[i]? with
        | some v => Except.ok v
        | none => Except.error PyErr.indexError) <;> rfl

theorem gather_ok {α : Type} {rows : List α} {idx : List ℕ} {out : List α} (h : gather rows idx = .ok out) :
    out.length = idx.length ∧ ∀ r ∈ out, r ∈ rows := by
  obtain ⟨h1, h2⟩ := mapM_eq_ok h
  refine ⟨h1, fun r hr => ?_⟩
  obtain ⟨k, hk, rfl⟩ := List.mem_iff_getElem.mp hr
  obtain ⟨b, hb, hf⟩ := h2 k idx[k] (List.getElem?_eq_getElem (by omega))
  rw [List.getElem?_eq_getElem hk] at hb
  simp only [Option.some.injEq] at hb
  subst hb
  split at hf
  · rename_i v hv
    simp only [Except.ok.injEq] at hf
    rw [← hf]
    exact List.mem_of_getElem? hv
  · simp at hf

theorem map_ok {α β : Type} {a : Except PyErr α} {f : α → β} {b : β} (h : a.map f = .ok b) :
    ∃ x, a = .ok x ∧ f x = b := by
  cases a with
  | error e => simp [Except.map] at h
  | ok x => simp only [Except.map, Except.ok.injEq] at h; exact ⟨x, rfl, h⟩

theorem orErr_ok {α : Type} {x : PyErr} {o : Option α} {a : α} (h : orErr x o = .ok a) : o = some a := by
  cases o with
  | none => simp [orErr] at h
  | some b => simp only [orErr, Except.ok.injEq] at h; rw [h]

theorem sysLoop_length {w : List F} {ps : List F} {j : ℕ} {c : F} {l : List ℕ} (h : sysLoop w ps j c = .ok l) :
    l.length = ps.length := by
  induction ps generalizing j c l with
  | nil => simp only [sysLoop, Except.ok.injEq] at h; subst h; rfl
  | cons p ps ih =>
    simp only [sysLoop] at h
    split at h
    · simp at h
    · split at h
      · simp at h
      · rename_i r hr
        simp only [Except.ok.injEq] at h
        subst h
        simp [ih hr]

theorem resampleIdx_length {e : SamplerEnv d B Φ} {rnd : Rnd d Φ} {t : ℕ} {w : List F} {l : List ℕ}
    (h : resampleIdx e rnd t w = .ok l) : l.length = e.nActive := by
  unfold resampleIdx at h
  split at h
  · unfold multinomialResample at h
    simp only at h
    split at h
    · simp at h
    · split at h
      · simp at h
      · split at h
        · simp at h
        · simp only [Except.ok.injEq] at h
          subst h
          simp
  · unfold systematicResample at h
    simp only at h
    split at h
    · simp at h
    · rw [sysLoop_length h]
      simp [sysPositions]

/-! ### the four steps of an iteration -/

/-- `_reweight`, what it does. -/
theorem reweight_ok {e : SamplerEnv d B Φ} {fuel : ℕ} {s s' : Sampler d B Φ} {c c' : Cur d B}
    (h : reweight e fuel s c = .ok (s', c')) :
    ∃ (nEff : ℕ) (beta logz ess : F) (w : List F) (tr : Trimmed ℕ),
      chooseBeta s.particles.past e.metric (F.ofNat s.nEffective) fuel = .ok (beta, logz, ess) ∧
      reweightWeights e { s with t := s.t + 1 } beta = .ok (w, nEff) ∧
      trimWeights (List.range w.length) w (fin 0.99) 1000 = .ok tr ∧
      gatherCur s.particles.past s.haveBlobs c tr.samples tr.weights beta logz ess = .ok c' ∧
      s' = { s with t := s.t + 1, nEffective := nEff } := by
  unfold reweight at h
  obtain ⟨⟨beta, logz, ess⟩, h1, h⟩ := bind_ok h
  obtain ⟨⟨w, nEff⟩, h2, h⟩ := bind_ok h
  obtain ⟨tr, h3, h⟩ := bind_ok h
  obtain ⟨c1, h4, h⟩ := bind_ok h
  simp only [pure, Except.pure, Except.ok.injEq, Prod.mk.injEq] at h
  obtain ⟨rfl, rfl⟩ := h
  exact ⟨nEff, beta, logz, ess, w, tr, h1, h2, h3, h4, rfl⟩

/-- What `_reweight` puts into `current_particles`. -/
theorem gatherCur_ok {n : ℕ} {hb : Bool} {P : Row d (List B) → Prop} {its : List (Iter d (List B))} (hne : its ≠ [])
    (hits : ∀ it ∈ its, HasRows n hb P it) {c c' : Cur d B} {idx : List ℕ} {w : List F} {beta logz ess : F}
    (hc : hb = false → c.it.blobs = none)
    (h : gatherCur (columns its) hb c idx w beta logz ess = .ok c') :
    (∃ rows, rows.length = idx.length ∧ IsRows hb c'.it rows ∧ ∀ r ∈ rows, P r) ∧
    c'.weights = some w ∧ c'.it.logw = c.it.logw ∧ c'.it.iter = c.it.iter ∧ c'.it.calls = c.it.calls ∧
    c'.it.steps = c.it.steps ∧ c'.it.efficiency = c.it.efficiency ∧ c'.it.accept = c.it.accept ∧
    c'.it.beta = beta ∧ c'.it.logz = logz ∧ c'.it.ess = ess := by
  obtain ⟨rows, f1, f2, f3, f4, f5, fP, -, f6, rs, f7, f8⟩ := flat_rows its hne hits
  unfold gatherCur at h
  rw [f1] at h
  obtain ⟨_, g0, h⟩ := bind_ok h
  simp only [Except.ok.injEq] at g0
  subst g0
  obtain ⟨u, g1, h⟩ := bind_ok h
  rw [gather_map] at g1
  obtain ⟨out, ho, rfl⟩ := map_ok g1
  simp only [f2, f3, f4, f5, gather_map, ho, bind, Except.bind, Except.map, pure, Except.pure] at h
  obtain ⟨o1, o2⟩ := gather_ok ho
  cases hb with
  | false =>
    simp only [Bool.false_eq_true, if_false, Except.ok.injEq] at h
    subst h
    refine ⟨⟨out, o1, ⟨rfl, rfl, rfl, rfl, rfl, ?_⟩, fun r hr => fP r (o2 r hr)⟩, rfl, rfl, rfl, rfl, rfl, rfl, rfl, rfl, rfl, rfl⟩
    simpa using hc rfl
  | true =>
    have hrs : rs ≠ [] := by
      rintro rfl
      simp at f8
      exact hne f8
    simp only [if_true] at f8 h
    rw [f6, f8, flatBlobs_rows rs hrs, ← f7] at h
    simp only [gather_map, ho, Except.map, Except.ok.injEq] at h
    subst h
    exact ⟨⟨out, o1, ⟨rfl, rfl, rfl, rfl, rfl, by simp⟩, fun r hr => fP r (o2 r hr)⟩, rfl, rfl, rfl, rfl, rfl, rfl, rfl, rfl, rfl, rfl⟩

/-- `_train`, what it does. -/
theorem train_ok {e : SamplerEnv d B Φ} {rnd : Rnd d Φ} {s s' : Sampler d B Φ} {c : Cur d B}
    (h : train e rnd s c = .ok s') :
    (trainNow e s c.it.beta = .ok true ∧ ∃ flow g, s' = { s with flowUntrained := false, flow := flow, thetaGeometry := some g }) ∨
    (trainNow e s c.it.beta = .ok false ∧ ∃ g, s' = { s with uGeometry := some g }) := by
  unfold train at h
  obtain ⟨w, h1, h⟩ := bind_ok h
  obtain ⟨b, h2, h⟩ := bind_ok h
  cases b with
  | true =>
    simp only [if_true] at h
    obtain ⟨flow, h3, h⟩ := bind_ok h
    obtain ⟨g, h4, h⟩ := bind_ok h
    simp only [pure, Except.pure, Except.ok.injEq] at h
    exact .inl ⟨h2, flow, g, h.symm⟩
  | false =>
    simp only [Bool.false_eq_true, if_false] at h
    obtain ⟨g, h4, h⟩ := bind_ok h
    simp only [pure, Except.pure, Except.ok.injEq] at h
    exact .inr ⟨h2, g, h.symm⟩

/-- `_resample`, what it does. -/
theorem resampleStep_ok {hb : Bool} {P : Row d (List B) → Prop} {e : SamplerEnv d B Φ} {rnd : Rnd d Φ}
    {s : Sampler d B Φ} {c c' : Cur d B} (hs : s.haveBlobs = hb) {rows : List (Row d (List B))} (hr : IsRows hb c.it rows)
    (hP : ∀ r ∈ rows, P r) (h : resampleStep e rnd s c = .ok c') :
    (∃ rows', rows'.length = e.nActive ∧ IsRows hb c'.it rows' ∧ ∀ r ∈ rows', P r) ∧
    c'.weights = c.weights ∧ c'.it.logw = c.it.logw ∧ c'.it.iter = c.it.iter ∧ c'.it.calls = c.it.calls ∧
    c'.it.steps = c.it.steps ∧ c'.it.efficiency = c.it.efficiency ∧ c'.it.accept = c.it.accept ∧
    c'.it.beta = c.it.beta ∧ c'.it.logz = c.it.logz ∧ c'.it.ess = c.it.ess := by
  unfold resampleStep at h
  obtain ⟨w, h1, h⟩ := bind_ok h
  obtain ⟨idx, h2, h⟩ := bind_ok h
  have hidx := resampleIdx_length h2
  obtain ⟨u, g1, h⟩ := bind_ok h
  rw [hr.u, gather_map] at g1
  obtain ⟨out, ho, rfl⟩ := map_ok g1
  simp only [hr.x, hr.logdetj, hr.logl, hr.logp, gather_map, hs, ho, bind, Except.bind, Except.map, pure, Except.pure,
    resampleBlobs] at h
  obtain ⟨o1, o2⟩ := gather_ok ho
  have hbl := hr.blobs
  cases hb with
  | false =>
    simp only [Bool.false_eq_true, if_false, Except.ok.injEq] at h hbl
    subst h
    refine ⟨⟨out, o1.trans hidx, ⟨rfl, rfl, rfl, rfl, rfl, ?_⟩, fun r hr => hP r (o2 r hr)⟩, rfl, rfl, rfl, rfl, rfl, rfl, rfl, rfl, rfl, rfl⟩
    simpa using hbl
  | true =>
    simp only [if_true] at h hbl
    rw [hbl] at h
    simp only [orErr, gather_map, ho, Except.map, Except.ok.injEq] at h
    subst h
    exact ⟨⟨out, o1.trans hidx, ⟨rfl, rfl, rfl, rfl, rfl, by simp⟩, fun r hr => hP r (o2 r hr)⟩, rfl, rfl, rfl, rfl, rfl, rfl, rfl, rfl, rfl, rfl⟩

/-- A stored particle as a walker. -/
def Spec.Row.walker (hb : Bool) (r : Row d B) : Walker d B :=
  { theta := fun _ => nan, u := r.u, x := r.x, logdetj := r.logdetj, logdetjFlow := nan, logl := r.logl, logp := r.logp,
    blob := if hb then some r.blob else none }

theorem map_range_getD {α β : Type} (l : List α) (f : ℕ → β) (g : α → β) (h : ∀ k (hk : k < l.length), f k = g l[k]) :
    (List.range l.length).map f = l.map g := by
  apply List.ext_getElem
  · simp
  · intro k h1 h2
    simp only [List.getElem_map, List.getElem_range]
    exact h k (by simpa using h1)

theorem toWalkers_rows {hb : Bool} {it : Iter d (List B)} {rows : List (Row d (List B))} (hr : IsRows hb it rows) :
    toWalkers it hb = .ok (rows.map (·.walker hb)) := by
  unfold toWalkers
  have hlen : ∀ {α : Type} (f : Row d (List B) → α), List.length (rows.map f) = rows.length := by simp
  have hget : ∀ {α : Type} (f : Row d (List B) → α) (k : ℕ) (hk : k < rows.length) (dflt : α),
      (rows.map f).getD k dflt = f rows[k] := by
    intro α f k hk dflt
    simp [List.getD, hk]
  cases hb with
  | false =>
    simp only [Bool.false_eq_true, if_false, hr.u, hr.x, hr.logdetj, hr.logl, hr.logp, bind, Except.bind, List.length_map,
      List.length_replicate, and_self, if_true, pure, Except.pure, Except.ok.injEq]
    apply map_range_getD
    intro k hk
    simp [hget _ k hk, Row.walker, hk]
  | true =>
    simp only [if_true, hr.blobs, hr.u, hr.x, hr.logdetj, hr.logl, hr.logp, bind, Except.bind, List.length_map,
      and_self, pure, Except.pure, Except.ok.injEq]
    apply map_range_getD
    intro k hk
    simp [hget _ k hk, Row.walker, hk]

/-- What the MCMC kernel is given. -/
theorem kernelEnv_ok {e : SamplerEnv d B Φ} {s : Sampler d B Φ} {beta : F} {k : McmcEnv d (List B)}
    (h : kernelEnv e s beta = .ok k) :
    k.beta = beta ∧ k.scaler = s.scaler ∧ k.haveBlobs = s.haveBlobs ∧ k.logPrior = e.logPrior ∧
    (k.logLike = fun xs => (logLike e.like xs).map fun r => (r.1, r.2.1)) ∧
    k.kernel = kernelOf e.preconditioned e.sample ∧ k.nMax = e.nMaxSteps ∧ k.nSteps = e.nSteps ∧
    k.proposalScale = s.proposalScale ∧ k.flowFwd = e.flowFwd s.flow ∧ k.flowInv = e.flowInv s.flow ∧
    ∃ g, (if e.preconditioned then s.thetaGeometry else s.uGeometry) = some g ∧ k.tMean = g.tMean ∧ k.tNu = g.tNu := by
  unfold kernelEnv at h
  obtain ⟨g, h1, h⟩ := bind_ok h
  obtain ⟨inv, h2, h⟩ := bind_ok h
  obtain ⟨chol, h3, h⟩ := bind_ok h
  simp only [pure, Except.pure, Except.ok.injEq] at h
  subst h
  exact ⟨rfl, rfl, rfl, rfl, rfl, rfl, rfl, rfl, rfl, rfl, rfl, g, orErr_ok h1, rfl, rfl⟩

theorem kernelEnv_rowwise {e : SamplerEnv d B Φ} {ll lp : Pt d → F} {bb : Pt d → List B} {hb : Bool}
    (hu : UserFns e ll lp bb hb) {s : Sampler d B Φ} (hs : s.haveBlobs = hb) {beta : F} {k : McmcEnv d (List B)}
    (h : kernelEnv e s beta = .ok k) : RowWise k ll lp bb := by
  obtain ⟨-, -, h1, h2, h3, -⟩ := kernelEnv_ok h
  refine ⟨fun xs => by rw [h2, hu.prior], fun xs => ?_⟩
  rw [h3, h1, hs]
  by_cases hx : xs = []
  · subst hx
    exact ⟨none, by simp [hu.nothing, Except.map], by simp, by simp⟩
  · refine ⟨if hb then some (xs.map bb) else none, by simp [hu.like xs hx, Except.map], ?_, fun _ h => absurd h hx⟩
    intro hh _
    simp [hh]

theorem mutate_ok {e : SamplerEnv d B Φ} {rnd : Rnd d Φ} {fuel : ℕ} {s s' : Sampler d B Φ} {c c' : Cur d B}
    (h : mutate e rnd fuel s c = .ok (s', c')) :
    ∃ ws k r, toWalkers c.it s.haveBlobs = .ok ws ∧ kernelEnv e s c.it.beta = .ok k ∧
      mcmc k fuel (rnd.mcmc s.t) ws = .ok r ∧ (s', c') = writeBack s c r := by
  unfold mutate at h
  obtain ⟨ws, h1, h⟩ := bind_ok h
  obtain ⟨k, h2, h⟩ := bind_ok h
  obtain ⟨r, h3, h⟩ := bind_ok h
  simp only [pure, Except.pure, Except.ok.injEq] at h
  exact ⟨ws, k, r, h1, h2, h3, h.symm⟩

/-- One iteration of the main loop, what it does. -/
theorem smcStep_ok {e : SamplerEnv d B Φ} {rnd : Rnd d Φ} {fuel : ℕ} {s s' : Sampler d B Φ}
    (h : smcStep e rnd fuel s = .ok s') :
    ∃ c s1 c1 s2 c2 s3 c3, s.cur = some c ∧ reweight e fuel s c = .ok (s1, c1) ∧ train e rnd s1 c1 = .ok s2 ∧
      resampleStep e rnd s2 c1 = .ok c2 ∧ mutate e rnd fuel s2 c2 = .ok (s3, c3) ∧
      s' = { s3 with cur := some c3, particles := s3.particles.update (Cols.full c3.it) } := by
  unfold smcStep at h
  obtain ⟨c, h0, h⟩ := bind_ok h
  obtain ⟨⟨s1, c1⟩, h1, h⟩ := bind_ok h
  obtain ⟨s2, h2, h⟩ := bind_ok h
  obtain ⟨c2, h3, h⟩ := bind_ok h
  obtain ⟨⟨s3, c3⟩, h4, h⟩ := bind_ok h
  simp only [pure, Except.pure, Except.ok.injEq] at h
  exact ⟨c, s1, c1, s2, c2, s3, c3, orErr_ok h0, h1, h2, h3, h4, h.symm⟩

end Poco
