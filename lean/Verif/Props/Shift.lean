import Verif.Spec.Shift
import Verif.Props.Mcmc
import Verif.Lemmas.Run
import Verif.Lemmas.Inv
import Verif.Props.Demo

/-! C73: a whole run is unaffected by the normalisation of the likelihood. -/

namespace Poco
open F Spec

variable {d : ℕ} {B Φ : Type}

/-! ### arithmetic -/

theorem add_fin_sub (a b : F) (k : ℝ) : (a + fin k) - b = (a - b) + fin k := by
  cases a <;> cases b <;> first | rfl | (simp; exact add_sub_right_comm (_ : ℝ) _ _)

theorem feq_add_fin (a b : F) (k : ℝ) : feq (a + fin k) (b + fin k) ↔ feq a b := by
  cases a <;> cases b <;> simp [feq]

theorem isinf_add_fin (a : F) (k : ℝ) : (a + fin k).isinf = a.isinf := by
  cases a <;> simp [F.isinf]

theorem logaddexp_add_fin (a b : F) (k : ℝ) : logaddexp (a + fin k) (b + fin k) = logaddexp a b + fin k := by
  unfold logaddexp
  simp only [feq_add_fin, sub_add_fin]
  split_ifs with h1 h2 h3
  · exact add_right_comm _ _ _
  · exact add_right_comm _ _ _
  · exact add_right_comm _ _ _
  · have : a - b = nan := by
      cases e : a - b with
      | nan => rfl
      | ninf => rw [e] at h3; exact absurd trivial h3
      | pinf => rw [e] at h2; exact absurd trivial h2
      | fin r =>
        rw [e] at h2 h3
        rcases le_or_gt r 0 with h | h
        · exact absurd (show (fin r : F) ≤ 0 from h) h3
        · exact absurd (show (fin r : F) > 0 from h) h2
    rw [this]; simp

theorem lse_add_fin (l : List F) (k : ℝ) : lse (l.map (· + fin k)) = lse l + fin k := by
  have : ∀ (l : List F) (a : F), (l.map (· + fin k)).foldl logaddexp (a + fin k) = l.foldl logaddexp a + fin k := by
    intro l
    induction l with
    | nil => intro a; rfl
    | cons x l ih => intro a; rw [List.map_cons, List.foldl_cons, List.foldl_cons, logaddexp_add_fin, ih]
  have h := this l ninf
  rwa [show (ninf + fin k : F) = ninf from rfl] at h

theorem std_add_fin (l : List F) (k : ℝ) : F.std (l.map (· + fin k)) = F.std l := by
  unfold F.std
  simp only [mean_shift, List.map_map]
  congr 2
  apply List.map_congr_left
  intro a _
  simp only [Function.comp, sub_add_fin]

/-! ### weights -/

theorem mixDenom_shift (c : ℝ) (beta logz : List F) (hl : logz.length = beta.length) (hb : ∀ b ∈ beta, ∃ r, b = fin r) (l : F) :
    mixDenom beta (List.zipWith (fun z b => z + fin c * b) logz beta) (l + fin c) = mixDenom beta logz l := by
  have : (beta.zip (List.zipWith (fun z b => z + fin c * b) logz beta)).map (fun bz => (l + fin c) * bz.1 - bz.2)
      = (beta.zip logz).map fun bz => l * bz.1 - bz.2 := by
    induction beta generalizing logz with
    | nil => rfl
    | cons b beta ih =>
      cases logz with
      | nil => simp at hl
      | cons z logz =>
        obtain ⟨r, rfl⟩ := hb b (by simp)
        simp only [List.zipWith_cons_cons, List.zip_cons_cons, List.map_cons]
        rw [ih logz (by simpa using hl) fun b hb' => hb b (by simp [hb']), add_fin_mul, fin_mul, sub_add_fin]
  unfold mixDenom
  rw [this]

theorem computeLogwLogz_shift (c : ℝ) (past : Cols d (List B) List) (hl : past.logz.length = past.beta.length)
    (hb : ∀ b ∈ past.beta, ∃ r, b = fin r) (b : ℝ) :
    computeLogwLogz (shiftCols c past) (fin b) = (computeLogwLogz past (fin b)).map fun r => (r.1, r.2 + fin (c * b)) := by
  unfold computeLogwLogz
  have e1 : (shiftCols c past).logl.any (fun row => decide (row.length ≠ ((shiftCols c past).logl.headD []).length))
      = past.logl.any (fun row => decide (row.length ≠ (past.logl.headD []).length)) := by
    have : ((shiftCols c past).logl.headD []).length = (past.logl.headD []).length := by
      simp only [shiftCols]
      cases past.logl <;> simp
    simp only [this]
    simp only [shiftCols, List.any_map]
    congr 1
    funext row
    simp
  have e2 : (shiftCols c past).logz.length = past.logz.length := by simp [shiftCols, hl]
  have e3 : (shiftCols c past).logl = [] ↔ past.logl = [] := by simp [shiftCols]
  have e4 : ((shiftCols c past).logl.flatten.map fun l => l * fin b - mixDenom (shiftCols c past).beta (shiftCols c past).logz l)
      = (past.logl.flatten.map fun l => l * fin b - mixDenom past.beta past.logz l).map (· + fin (c * b)) := by
    simp only [shiftCols]
    rw [← List.map_flatten, List.map_map, List.map_map]
    apply List.map_congr_left
    intro l _
    simp only [Function.comp]
    rw [mixDenom_shift c _ _ hl hb, add_fin_mul, add_fin_sub]
  rw [e1, e2, show (shiftCols c past).beta = past.beta from rfl]
  by_cases h1 : past.logl.any (fun row => decide (row.length ≠ (past.logl.headD []).length)) = true
  · rw [if_pos h1, if_pos h1]; rfl
  rw [if_neg h1, if_neg h1]
  by_cases h2 : past.logz.length < past.beta.length
  · rw [if_pos h2, if_pos h2]; rfl
  rw [if_neg h2, if_neg h2]
  by_cases h3 : past.logl = []
  · rw [if_pos (e3.mpr h3), if_pos h3]; rfl
  rw [if_neg (fun h => h3 (e3.mp h)), if_neg h3]
  rw [show (shiftCols c past).beta = past.beta from rfl] at e4
  simp only [if_true, Except.map]
  rw [e4, lse_add_fin, List.length_map, List.map_map, add_fin_sub]
  congr 2
  apply List.map_congr_left
  intro l _
  simp only [Function.comp, sub_add_fin]

theorem bind_shift {α β α' β' : Type} {a : Except PyErr α} {a' : Except PyErr α'} {f : α → α'} {g : β → β'}
    {k : α → Except PyErr β} {k' : α' → Except PyErr β'} (ha : a' = a.map f) (hk : ∀ x, a = .ok x → k' (f x) = (k x).map g) :
    (a' >>= k') = (a >>= k).map g := by
  subst ha
  cases a with
  | error x => rfl
  | ok x => exact hk x rfl

theorem bind_shift_id {α β β' : Type} {a a' : Except PyErr α} {g : β → β'} {k : α → Except PyErr β}
    {k' : α → Except PyErr β'} (ha : a' = a) (hk : ∀ x, a = .ok x → k' x = (k x).map g) : (a' >>= k') = (a >>= k).map g := by
  subst ha
  cases a' with
  | error x => rfl
  | ok x => exact hk x rfl

theorem getAt_mem {α : Type} {l : List α} {i : ℤ} {a : α} (h : getAt l i = .ok a) : a ∈ l := by
  unfold getAt pyGet? at h
  split at h
  · rename_i heq
    cases h
    split_ifs at heq <;> exact List.mem_of_getElem? heq
  · cases h

theorem getAt_last_shift (c : ℝ) (logz beta : List F) (hl : logz.length = beta.length) {b : F}
    (hb : getAt beta (-1) = .ok b) :
    getAt (List.zipWith (fun z b => z + fin c * b) logz beta) (-1) = (getAt logz (-1)).map (· + fin c * b) := by
  have e1 : ∀ {α : Type} (l : List α), pyGet? l (-1) = if 0 < l.length then l[l.length - 1]? else none := by
    intro α l
    unfold pyGet?
    rw [if_neg (by omega)]
    by_cases h : 0 < l.length
    · rw [if_pos h, if_pos (by omega)]
      congr 1
      omega
    · rw [if_neg h, if_neg (by omega)]
  unfold getAt at *
  simp only [e1, List.length_zipWith, hl, min_self] at *
  by_cases h : 0 < beta.length
  · simp only [if_pos h] at *
    rw [List.getElem?_zipWith]
    cases h1 : beta[beta.length - 1]? with
    | none => rw [h1] at hb; cases hb
    | some v =>
      rw [h1] at hb
      cases hb
      cases logz[beta.length - 1]? <;> rfl
  · rw [if_neg h] at hb
    cases hb

section
variable {c : ℝ} {past : Cols d (List B) List} (hl : past.logz.length = past.beta.length)
  (hb : ∀ b ∈ past.beta, ∃ r, b = fin r)
include hl hb

theorem weightsAt_shift (b : ℝ) : weightsAt (shiftCols c past) (fin b) = weightsAt past (fin b) := by
  unfold weightsAt
  rw [computeLogwLogz_shift c past hl hb]
  cases computeLogwLogz past (fin b) <;> rfl

theorem essAt_shift (m : Metric) (b : ℝ) : essAt (shiftCols c past) m (fin b) = essAt past m (fin b) := by
  unfold essAt
  rw [weightsAt_shift hl hb]

theorem bisect_shift (m : Metric) (nEff : F) (n : ℕ) : ∀ lo hi : ℝ,
    bisect (shiftCols c past) m nEff n (fin lo) (fin hi) = bisect past m nEff n (fin lo) (fin hi) := by
  induction n with
  | zero => intro lo hi; rfl
  | succ n ih =>
    intro lo hi
    obtain ⟨mid, hm⟩ : ∃ mid, (fin hi + fin lo) * fin 0.5 = fin mid := ⟨(hi + lo) * 0.5, by simp⟩
    unfold bisect
    dsimp only
    rw [hm, essAt_shift hl hb]
    cases essAt past m (fin mid) with
    | error x => rfl
    | ok ess =>
      dsimp only
      rw [ih, ih]

omit hl hb in
theorem bisect_fin (m : Metric) (nEff : F) (n : ℕ) : ∀ (lo hi : ℝ) (r : F × F),
    bisect past m nEff n (fin lo) (fin hi) = .ok r → ∃ b, r.1 = fin b := by
  induction n with
  | zero => intro lo hi r h; simp [bisect] at h
  | succ n ih =>
    intro lo hi r h
    obtain ⟨mid, hm⟩ : ∃ mid, (fin hi + fin lo) * fin 0.5 = fin mid := ⟨(hi + lo) * 0.5, by simp⟩
    unfold bisect at h
    dsimp only at h
    rw [hm] at h
    cases he : essAt past m (fin mid) with
    | error x => rw [he] at h; cases h
    | ok ess =>
      rw [he] at h
      dsimp only at h
      split_ifs at h
      · cases h; exact ⟨_, rfl⟩
      · exact ih _ _ r h
      · exact ih _ _ r h

omit hl in
theorem chooseBeta_fin {m : Metric} {nEff : F} {fuel : ℕ} {r : F × F × F} (h : chooseBeta past m nEff fuel = .ok r) :
    ∃ b, r.1 = fin b := by
  unfold chooseBeta at h
  simp only [bind, Except.bind] at h
  cases hp : getAt past.beta (-1) with
  | error x => rw [hp] at h; simp at h
  | ok bp =>
    have hbp := hb bp (getAt_mem hp)
    obtain ⟨q, rfl⟩ := hbp
    rw [hp] at h
    simp only at h
    cases h1 : essAt past m (fin q) with
    | error x => rw [h1] at h; simp at h
    | ok e1 =>
      rw [h1] at h
      simp only at h
      cases h2 : essAt past m (fin 1) with
      | error x => rw [h2] at h; simp at h
      | ok e2 =>
        rw [h2] at h
        simp only at h
        split_ifs at h
        · cases h3 : getAt past.logz (-1) with
          | error x => rw [h3] at h; simp at h
          | ok z => rw [h3] at h; simp only [pure, Except.pure, Except.ok.injEq] at h; rw [← h]; exact ⟨_, rfl⟩
        · cases h3 : computeLogwLogz past (fin 1) with
          | error x => rw [h3] at h; simp at h
          | ok z => rw [h3] at h; simp only [pure, Except.pure, Except.ok.injEq] at h; rw [← h]; exact ⟨_, rfl⟩
        · cases h3 : bisect past m nEff fuel (fin q) (fin 1) with
          | error x => rw [h3] at h; simp at h
          | ok z =>
            rw [h3] at h
            simp only at h
            obtain ⟨b', hb'⟩ := bisect_fin m nEff fuel q 1 z h3
            cases h4 : computeLogwLogz past z.1 with
            | error x => rw [h4] at h; simp at h
            | ok y => rw [h4] at h; simp only [pure, Except.pure, Except.ok.injEq] at h; rw [← h]; exact ⟨b', hb'⟩

theorem chooseBeta_shift (m : Metric) (nEff : F) (fuel : ℕ) :
    chooseBeta (shiftCols c past) m nEff fuel =
      (chooseBeta past m nEff fuel).map fun r => (r.1, r.2.1 + fin c * r.1, r.2.2) := by
  unfold chooseBeta
  apply bind_shift_id rfl
  intro bp hp
  obtain ⟨q, rfl⟩ := hb bp (getAt_mem hp)
  apply bind_shift_id (essAt_shift hl hb m q)
  intro e1 _
  apply bind_shift_id (essAt_shift hl hb m 1)
  intro e2 _
  split_ifs
  · refine bind_shift (f := fun z => z + fin c * fin q) ?_ ?_
    · exact getAt_last_shift c _ _ hl hp
    · intro z _; rfl
  · refine bind_shift (computeLogwLogz_shift c past hl hb 1) ?_
    intro z _
    simp [Except.map, pure, Except.pure]
  · refine bind_shift_id (bisect_shift hl hb m nEff fuel q 1) ?_
    intro z hz
    obtain ⟨b', hb'⟩ := bisect_fin m nEff fuel q 1 z hz
    obtain ⟨z1, z2⟩ := z
    simp only at hb'
    subst hb'
    refine bind_shift (computeLogwLogz_shift c past hl hb b') ?_
    intro y _
    simp [Except.map, pure, Except.pure]

end

/-! ### likelihood calls -/

/-- The pool, if any, is order preserving. -/
def PoolOk (e : LikeEnv d B) : Prop := ∀ D, e.pool = some D → ∀ f xs, D f xs = xs.mapM f

theorem len_shift (c : ℝ) (o : LikeOut B) : (shiftOut c o).len = o.len := by cases o <;> rfl
theorem tail_shift (c : ℝ) (o : LikeOut B) : (shiftOut c o).tail = o.tail := by cases o <;> rfl
theorem first_shift (c : ℝ) (o : LikeOut B) : (shiftOut c o).first = o.first + fin c := by cases o <;> rfl
theorem toFloat_shift (c : ℝ) (o : LikeOut B) : (shiftOut c o).toFloat = o.toFloat.map (· + fin c) := by
  cases o with
  | scalar v => rfl
  | seq a v rest => cases a <;> cases rest <;> rfl

theorem mapM_map_map {α α' β β' : Type} (f : α → Except PyErr β) (g : α' → Except PyErr β') (i : α → α') (j : β → β')
    (h : ∀ a, g (i a) = (f a).map j) (l : List α) : (l.map i).mapM g = (l.mapM f).map (List.map j) := by
  induction l with
  | nil => rfl
  | cons a l ih =>
    rw [List.map_cons, List.mapM_cons, List.mapM_cons]
    refine bind_shift (h a) fun b _ => bind_shift ih fun bs _ => rfl

theorem unpackResults_shift (c : ℝ) (rs : List (LikeOut B)) :
    unpackResults (rs.map (shiftOut c)) = (unpackResults rs).map fun r => (r.1.map (· + fin c), r.2) := by
  unfold unpackResults
  have h1 : (rs.map (shiftOut c)).mapM LikeOut.len = rs.mapM LikeOut.len := by
    have := mapM_map_map LikeOut.len LikeOut.len (shiftOut (B := B) c) id (fun a => by
      rw [len_shift]; cases a.len <;> rfl) rs
    rw [this]
    cases rs.mapM LikeOut.len <;> simp [Except.map]
  have h2 := mapM_map_map LikeOut.toFloat LikeOut.toFloat (shiftOut (B := B) c) (· + fin c) (toFloat_shift c) rs
  have h3 : ((rs.map (shiftOut c)).mapM LikeOut.toFloat).map (fun l => (l, (none : Option (List (List B))), false))
      = ((rs.mapM LikeOut.toFloat).map fun l => (l, (none : Option (List (List B))), false)).map
          fun r => (r.1.map (· + fin c), r.2) := by
    rw [h2]
    cases rs.mapM LikeOut.toFloat <;> rfl
  rw [h1]
  cases hlen : rs.mapM LikeOut.len with
  | error x => cases x <;> first | exact h3 | rfl
  | ok lens =>
    have h4 : (((rs.map (shiftOut c)).zip lens).filter fun q => decide (q.2 > 1)).map (fun q => q.1.tail)
        = ((rs.zip lens).filter fun q => decide (q.2 > 1)).map fun q => q.1.tail := by
      rw [List.zip_map_left, List.filter_map, List.map_map]
      apply List.map_congr_left
      intro a _
      exact tail_shift c a.1
    simp only [h4]
    split_ifs
    · exact h3
    · simp [Except.map, Function.comp_def, first_shift]

theorem logLike_shift (c : ℝ) (e : SamplerEnv d B Φ) (hp : PoolOk e.like) (xs : List (Pt d)) :
    logLike (shiftProblem c e).like xs = (logLike e.like xs).map fun r => (r.1.map (· + fin c), r.2) := by
  have key : xs.mapM (shiftProblem c e).like.single >>= unpackResults
      = (xs.mapM e.like.single >>= unpackResults).map fun r => (r.1.map (· + fin c), r.2) := by
    have := mapM_map_map e.like.single (shiftProblem c e).like.single id (shiftOut c) (fun _ => rfl) xs
    rw [List.map_id] at this
    exact bind_shift this fun rs _ => unpackResults_shift c rs
  unfold logLike
  have e1 : (shiftProblem c e).like.vectorize = e.like.vectorize := rfl
  have e2 : (shiftProblem c e).like.pool = e.like.pool := rfl
  rw [e1, e2]
  split_ifs
  · have : (shiftProblem c e).like.vector xs = (e.like.vector xs).map (List.map (· + fin c)) := rfl
    rw [this]
    cases e.like.vector xs <;> rfl
  · cases hD : e.like.pool with
    | none => exact key
    | some D =>
      dsimp only
      rw [hp D hD, hp D hD]
      exact key

/-! ### reweighting -/

noncomputable def shiftCur (c : ℝ) (q : Cur d B) : Cur d B := { q with it := shiftIter c q.it }

theorem getFlat_shift (c : ℝ) (l : List (List F)) :
    getFlat (l.map (List.map (· + fin c))) = (getFlat l).map (List.map (· + fin c)) := by
  unfold getFlat
  by_cases h : l = []
  · simp [h, Except.map]
  · simp [h, Except.map]

theorem gatherCur_shift (c : ℝ) (past : Cols d (List B) List) (hB : Bool) (q : Cur d B) (idx : List ℕ) (w : List F)
    (beta logz ess : F) :
    gatherCur (shiftCols c past) hB (shiftCur c q) idx w beta (logz + fin c * beta) ess =
      (gatherCur past hB q idx w beta logz ess).map (shiftCur c) := by
  unfold gatherCur
  refine bind_shift_id rfl fun _ _ => bind_shift_id rfl fun _ _ => bind_shift_id rfl fun _ _ => bind_shift_id rfl fun _ _ =>
    bind_shift_id rfl fun _ _ => bind_shift_id rfl fun _ _ => ?_
  refine bind_shift (getFlat_shift c _) fun l _ => bind_shift (gather_map l _ idx) fun _ _ => ?_
  refine bind_shift_id rfl fun _ _ => bind_shift_id rfl fun _ _ => ?_
  dsimp only
  split_ifs
  · exact bind_shift_id rfl fun _ _ => rfl
  · rfl

theorem reweightWeights_shift (c : ℝ) (e : SamplerEnv d B Φ) (s : Sampler d B Φ) (hs : ProperTemps s) (b : ℝ) :
    reweightWeights (shiftProblem c e) (shiftSampler c s) (fin b) = reweightWeights e s (fin b) := by
  unfold reweightWeights
  have : weightsAt (shiftSampler c s).particles.past (fin b) = weightsAt s.particles.past (fin b) :=
    weightsAt_shift hs.1 hs.2 b
  rw [this]
  rfl

theorem reweight_shift (c : ℝ) (e : SamplerEnv d B Φ) (fuel : ℕ) (s : Sampler d B Φ) (hs : ProperTemps s) (q : Cur d B) :
    reweight (shiftProblem c e) fuel (shiftSampler c s) (shiftCur c q) =
      (reweight e fuel s q).map fun r => (shiftSampler c r.1, shiftCur c r.2) := by
  unfold reweight
  refine bind_shift (chooseBeta_shift hs.1 hs.2 _ _ _) fun r hr => ?_
  obtain ⟨b, hb⟩ := chooseBeta_fin hs.2 hr
  obtain ⟨r1, z, es⟩ := r
  simp only at hb
  subst hb
  refine bind_shift_id (reweightWeights_shift c e { s with t := s.t + 1 } hs b) fun wn _ => ?_
  refine bind_shift_id rfl fun tr _ => ?_
  refine bind_shift (gatherCur_shift c _ _ q _ _ _ _ _) fun q' _ => ?_
  rfl

theorem reweight_past {e : SamplerEnv d B Φ} {fuel : ℕ} {s : Sampler d B Φ} (hs : ProperTemps s) {q : Cur d B}
    {r : Sampler d B Φ × Cur d B} (h : reweight e fuel s q = .ok r) :
    r.1.particles = s.particles ∧ ∃ b, r.2.it.beta = fin b := by
  unfold reweight at h
  obtain ⟨x1, h1, h⟩ := bind_ok h
  obtain ⟨b, hb⟩ := chooseBeta_fin hs.2 h1
  obtain ⟨r1, z, es⟩ := x1
  obtain ⟨x2, h2, h⟩ := bind_ok h
  obtain ⟨x3, h3, h⟩ := bind_ok h
  obtain ⟨q', h4, h⟩ := bind_ok h
  cases h
  refine ⟨rfl, b, ?_⟩
  rw [← hb]
  unfold gatherCur at h4
  obtain ⟨_, -, h4⟩ := bind_ok h4
  obtain ⟨_, -, h4⟩ := bind_ok h4
  obtain ⟨_, -, h4⟩ := bind_ok h4
  obtain ⟨_, -, h4⟩ := bind_ok h4
  obtain ⟨_, -, h4⟩ := bind_ok h4
  obtain ⟨_, -, h4⟩ := bind_ok h4
  obtain ⟨_, -, h4⟩ := bind_ok h4
  obtain ⟨_, -, h4⟩ := bind_ok h4
  obtain ⟨_, -, h4⟩ := bind_ok h4
  obtain ⟨_, -, h4⟩ := bind_ok h4
  dsimp only at h4
  split_ifs at h4
  · obtain ⟨_, -, h4⟩ := bind_ok h4
    cases h4; rfl
  · cases h4; rfl

/-! ### training, resampling, mutation -/

theorem train_shift (c : ℝ) (e : SamplerEnv d B Φ) (rnd : Rnd d Φ) (s : Sampler d B Φ) (q : Cur d B) :
    train (shiftProblem c e) rnd (shiftSampler c s) (shiftCur c q) = (train e rnd s q).map (shiftSampler c) := by
  unfold train
  refine bind_shift_id rfl fun w _ => bind_shift_id rfl fun b _ => ?_
  cases b with
  | true => exact bind_shift_id rfl fun _ _ => bind_shift_id rfl fun _ _ => rfl
  | false => exact bind_shift_id rfl fun _ _ => rfl

theorem train_past {e : SamplerEnv d B Φ} {rnd : Rnd d Φ} {s s' : Sampler d B Φ} {q : Cur d B}
    (h : train e rnd s q = .ok s') : s'.particles = s.particles := by
  unfold train at h
  obtain ⟨w, -, h⟩ := bind_ok h
  obtain ⟨b, -, h⟩ := bind_ok h
  cases b with
  | true =>
    obtain ⟨_, -, h⟩ := bind_ok h
    obtain ⟨_, -, h⟩ := bind_ok h
    cases h; rfl
  | false =>
    obtain ⟨_, -, h⟩ := bind_ok h
    cases h; rfl

theorem resampleStep_shift (c : ℝ) (e : SamplerEnv d B Φ) (rnd : Rnd d Φ) (s : Sampler d B Φ) (q : Cur d B) :
    resampleStep (shiftProblem c e) rnd (shiftSampler c s) (shiftCur c q) = (resampleStep e rnd s q).map (shiftCur c) := by
  unfold resampleStep
  refine bind_shift_id rfl fun _ _ => bind_shift_id rfl fun _ _ => bind_shift_id rfl fun _ _ => bind_shift_id rfl fun _ _ =>
    bind_shift_id rfl fun _ _ => ?_
  refine bind_shift (gather_map _ _ _) fun _ _ => bind_shift_id rfl fun _ _ => bind_shift_id rfl fun _ _ => rfl

theorem resampleStep_beta {e : SamplerEnv d B Φ} {rnd : Rnd d Φ} {s : Sampler d B Φ} {q q' : Cur d B}
    (h : resampleStep e rnd s q = .ok q') : q'.it.beta = q.it.beta := by
  unfold resampleStep at h
  obtain ⟨_, -, h⟩ := bind_ok h
  obtain ⟨_, -, h⟩ := bind_ok h
  obtain ⟨_, -, h⟩ := bind_ok h
  obtain ⟨_, -, h⟩ := bind_ok h
  obtain ⟨_, -, h⟩ := bind_ok h
  obtain ⟨_, -, h⟩ := bind_ok h
  obtain ⟨_, -, h⟩ := bind_ok h
  obtain ⟨_, -, h⟩ := bind_ok h
  cases h; rfl

theorem toWalkers_shift (c : ℝ) (it : Iter d (List B)) (hB : Bool) :
    toWalkers (shiftIter c it) hB = (toWalkers it hB).map (List.map (shiftWalker c)) := by
  unfold toWalkers
  have key : ∀ blobs : List (Option (List B)),
      (if List.length (shiftIter c it).u = List.length (shiftIter c it).x ∧
          List.length (shiftIter c it).logdetj = List.length (shiftIter c it).x ∧
          List.length (shiftIter c it).logl = List.length (shiftIter c it).x ∧
          List.length (shiftIter c it).logp = List.length (shiftIter c it).x ∧
          blobs.length = List.length (shiftIter c it).x then
        (pure ((List.range (List.length (shiftIter c it).x)).map fun k =>
          { theta := fun _ => nan, u := (List.getD (shiftIter c it).u k fun _ => nan),
            x := (List.getD (shiftIter c it).x k fun _ => nan), logdetj := List.getD (shiftIter c it).logdetj k nan,
            logdetjFlow := nan, logl := List.getD (shiftIter c it).logl k nan,
            logp := List.getD (shiftIter c it).logp k nan, blob := blobs.getD k none }) :
            Except PyErr (List (Walker d (List B))))
      else .error .indexError) =
      (if List.length it.u = List.length it.x ∧ List.length it.logdetj = List.length it.x ∧
          List.length it.logl = List.length it.x ∧ List.length it.logp = List.length it.x ∧
          blobs.length = List.length it.x then
        (pure ((List.range (List.length it.x)).map fun k =>
          { theta := fun _ => nan, u := (List.getD it.u k fun _ => nan),
            x := (List.getD it.x k fun _ => nan), logdetj := List.getD it.logdetj k nan,
            logdetjFlow := nan, logl := List.getD it.logl k nan,
            logp := List.getD it.logp k nan, blob := blobs.getD k none }) :
            Except PyErr (List (Walker d (List B))))
      else .error .indexError).map (List.map (shiftWalker c)) := by
    intro blobs
    have hlen : List.length (shiftIter c it).logl = List.length it.logl := List.length_map ..
    rw [hlen]
    by_cases h : List.length it.u = List.length it.x ∧ List.length it.logdetj = List.length it.x ∧
          List.length it.logl = List.length it.x ∧ List.length it.logp = List.length it.x ∧
          blobs.length = List.length it.x
    · rw [if_pos h]
      refine (if_pos h).trans ?_
      simp only [pure, Except.pure, Except.map, List.map_map]
      congr 1
      apply List.map_congr_left
      intro k _
      simp only [Function.comp, shiftWalker]
      congr 1
      simp only [shiftIter]
      rw [List.getD_eq_getElem?_getD, List.getD_eq_getElem?_getD, List.getElem?_map]
      cases (it.logl : List F)[k]? <;> rfl
    · rw [if_neg h]
      exact if_neg h
  cases hB with
  | true =>
    have : (shiftIter c it).blobs = it.blobs := rfl
    simp only [this, if_true]
    cases (it.blobs : Option (List (List B))) with
    | none => rfl
    | some b => exact key _
  | false => exact key _

theorem kernelEnv_shift (c : ℝ) (e : SamplerEnv d B Φ) (hp : PoolOk e.like) (s : Sampler d B Φ) (beta : F) :
    kernelEnv (shiftProblem c e) (shiftSampler c s) beta = (kernelEnv e s beta).map (shiftEnv c) := by
  unfold kernelEnv
  refine bind_shift_id rfl fun g _ => bind_shift_id rfl fun _ _ => bind_shift_id rfl fun _ _ => ?_
  simp only [pure, Except.pure, Except.map, shiftEnv]
  congr 2
  funext xs
  rw [logLike_shift c e hp]
  cases logLike e.like xs <;> rfl

theorem kernelEnv_beta {e : SamplerEnv d B Φ} {s : Sampler d B Φ} {beta : F} {k : McmcEnv d (List B)}
    (h : kernelEnv e s beta = .ok k) : k.beta = beta := by
  unfold kernelEnv at h
  obtain ⟨_, -, h⟩ := bind_ok h
  obtain ⟨_, -, h⟩ := bind_ok h
  obtain ⟨_, -, h⟩ := bind_ok h
  cases h; rfl

theorem writeBack_shift (c : ℝ) (s : Sampler d B Φ) (q : Cur d B) (r : McmcResult d (List B)) :
    writeBack (shiftSampler c s) (shiftCur c q) (shiftResult c r) =
      (shiftSampler c (writeBack s q r).1, shiftCur c (writeBack s q r).2) := by
  unfold writeBack shiftResult shiftCur shiftSampler shiftIter shiftWalker
  simp only [List.map_map]
  rfl

theorem mutate_shift (c : ℝ) (e : SamplerEnv d B Φ) (hp : PoolOk e.like) (rnd : Rnd d Φ) (fuel : ℕ) (s : Sampler d B Φ)
    (q : Cur d B) (b : ℝ) (hb : q.it.beta = fin b) :
    mutate (shiftProblem c e) rnd fuel (shiftSampler c s) (shiftCur c q) =
      (mutate e rnd fuel s q).map fun r => (shiftSampler c r.1, shiftCur c r.2) := by
  unfold mutate
  refine bind_shift (toWalkers_shift c q.it _) fun ws _ => ?_
  refine bind_shift (kernelEnv_shift c e hp s _) fun k hk => ?_
  refine bind_shift (C33_shift_invariance c k b ((kernelEnv_beta hk).trans hb) fuel _ ws) fun r _ => ?_
  rw [writeBack_shift]
  rfl

theorem mutate_past {e : SamplerEnv d B Φ} {rnd : Rnd d Φ} {fuel : ℕ} {s : Sampler d B Φ} {q : Cur d B}
    {r : Sampler d B Φ × Cur d B} (h : mutate e rnd fuel s q = .ok r) :
    r.1.particles = s.particles ∧ r.2.it.beta = q.it.beta := by
  unfold mutate at h
  obtain ⟨_, -, h⟩ := bind_ok h
  obtain ⟨_, -, h⟩ := bind_ok h
  obtain ⟨_, -, h⟩ := bind_ok h
  cases h; exact ⟨rfl, rfl⟩

theorem update_shift (c : ℝ) (p : Particles d (List B)) (hl : p.past.logz.length = p.past.beta.length)
    (it : Iter d (List B)) :
    ({ past := shiftCols c p.past, resultsDict := p.resultsDict.map fun r => { r with cols := shiftCols c r.cols } } :
      Particles d (List B)).update (Cols.full (shiftIter c it)) =
    { past := shiftCols c (p.update (Cols.full it)).past
      resultsDict := (p.update (Cols.full it)).resultsDict.map fun r => { r with cols := shiftCols c r.cols } } := by
  unfold Particles.update Cols.full shiftCols shiftIter
  simp only [Option.toList, List.map_append, List.map_cons, List.map_nil]
  rw [List.zipWith_append hl]
  rfl

theorem smcStep_shift (c : ℝ) (e : SamplerEnv d B Φ) (hp : PoolOk e.like) (rnd : Rnd d Φ) (fuel : ℕ) (s : Sampler d B Φ)
    (hs : ProperTemps s) :
    smcStep (shiftProblem c e) rnd fuel (shiftSampler c s) = (smcStep e rnd fuel s).map (shiftSampler c) := by
  unfold smcStep
  refine bind_shift (f := shiftCur c) (by simp only [shiftSampler]; cases s.cur <;> rfl) fun q _ => ?_
  refine bind_shift (reweight_shift c e fuel s hs q) fun r hr => ?_
  obtain ⟨hr1, b, hr2⟩ := reweight_past hs hr
  obtain ⟨s1, q1⟩ := r
  dsimp only at hr1 hr2 ⊢
  refine bind_shift (train_shift c e rnd s1 q1) fun s2 h2 => ?_
  refine bind_shift (resampleStep_shift c e rnd s2 q1) fun q2 h3 => ?_
  refine bind_shift (mutate_shift c e hp rnd fuel s2 q2 b ((resampleStep_beta h3).trans hr2)) fun r h4 => ?_
  have hpp : r.1.particles = s.particles := (mutate_past h4).1.trans ((train_past h2).trans hr1)
  obtain ⟨s3, q3⟩ := r
  dsimp only at hpp ⊢
  simp only [pure, Except.pure, Except.map]
  congr 1
  have := update_shift c s3.particles (by rw [hpp]; exact hs.1) q3.it
  simp only [shiftSampler, shiftCur, Option.map_some] at this ⊢
  rw [this]

theorem smcStep_proper {e : SamplerEnv d B Φ} {rnd : Rnd d Φ} {fuel : ℕ} {s s' : Sampler d B Φ}
    (hs : ProperTemps s) (h : smcStep e rnd fuel s = .ok s') : ProperTemps s' := by
  unfold smcStep at h
  obtain ⟨q, -, h⟩ := bind_ok h
  obtain ⟨r, hr, h⟩ := bind_ok h
  obtain ⟨hr1, b, hr2⟩ := reweight_past hs hr
  obtain ⟨s1, q1⟩ := r
  dsimp only at hr1 hr2 h
  obtain ⟨s2, h2, h⟩ := bind_ok h
  obtain ⟨q2, h3, h⟩ := bind_ok h
  obtain ⟨r, h4, h⟩ := bind_ok h
  have hpp : r.1.particles = s.particles := (mutate_past h4).1.trans ((train_past h2).trans hr1)
  have hbb : r.2.it.beta = fin b := (mutate_past h4).2.trans ((resampleStep_beta h3).trans hr2)
  obtain ⟨s3, q3⟩ := r
  dsimp only at hpp hbb h
  cases h
  unfold ProperTemps
  simp only [Particles.update, Cols.full, Option.toList, hpp]
  refine ⟨by simp [hs.1], fun x hx => ?_⟩
  rcases List.mem_append.mp hx with hx | hx
  · exact hs.2 x hx
  · exact ⟨b, (List.mem_singleton.mp hx).trans hbb⟩

/-! ### warm-up -/

noncomputable def shiftBatch (c : ℝ) (b : Batch d B) : Batch d B := { b with logl := b.logl.map (· + fin c) }

theorem infDonors_shift (c : ℝ) (logl : List F) (draw : ℕ → ℕ) :
    infDonors (logl.map (· + fin c)) draw = infDonors logl draw := by
  unfold infDonors
  have : (logl.map (· + fin c)).map F.isinf = logl.map F.isinf := by
    rw [List.map_map]
    apply List.map_congr_left
    intro a _
    exact isinf_add_fin a c
  rw [this, List.length_map]

theorem replaceInf_shift (c : ℝ) (b : Batch d B) (hB : Bool) (draw : ℕ → ℕ) :
    replaceInf (shiftBatch c b) hB draw = (replaceInf b hB draw).map (shiftBatch c) := by
  unfold replaceInf
  refine bind_shift_id (infDonors_shift c b.logl draw) fun ds _ => ?_
  obtain ⟨dst, src⟩ := ds
  dsimp only
  split_ifs
  · rfl
  · refine bind_shift_id rfl fun _ _ => bind_shift_id rfl fun _ _ => bind_shift_id rfl fun _ _ => bind_shift_id rfl fun _ _ => ?_
    exact bind_shift (copyRows_map _ _ _ _) fun _ _ => bind_shift_id rfl fun _ _ => rfl

theorem warmupBatch_shift (c : ℝ) (e : SamplerEnv d B Φ) (hp : PoolOk e.like) (s : Sampler d B Φ) (i : ℕ) :
    warmupBatch (shiftProblem c e) (shiftSampler c s) i =
      (warmupBatch e s i).map fun r => (shiftBatch c r.1, r.2) := by
  unfold warmupBatch
  refine bind_shift_id rfl fun _ _ => bind_shift_id rfl fun _ _ => bind_shift_id rfl fun _ _ => ?_
  exact bind_shift (logLike_shift c e hp _) fun _ _ => rfl

theorem warmupIter_shift (c : ℝ) (b : Batch d B) (n t calls nEff : ℕ) :
    warmupIter (shiftBatch c b) n t calls nEff = shiftIter c (warmupIter b n t calls nEff) := by
  unfold warmupIter shiftBatch shiftIter
  simp

theorem warmupStep_shift (c : ℝ) (e : SamplerEnv d B Φ) (hp : PoolOk e.like) (rnd : Rnd d Φ) (s : Sampler d B Φ)
    (hs : ProperTemps s) (i : ℕ) :
    warmupStep (shiftProblem c e) rnd (shiftSampler c s) i = (warmupStep e rnd s i).map (shiftSampler c) := by
  unfold warmupStep
  refine bind_shift (warmupBatch_shift c e hp s i) fun r _ => ?_
  obtain ⟨b0, hb⟩ := r
  refine bind_shift (replaceInf_shift c b0 hb _) fun b _ => ?_
  simp only [pure, Except.pure, Except.map]
  congr 1
  rw [warmupIter_shift]
  have := update_shift c s.particles hs.1 (warmupIter b e.nActive s.t (s.calls + e.nActive) s.nEffective)
  simp only [shiftSampler, Option.map_some] at this ⊢
  rw [← this]
  rfl

theorem warmupStep_proper {e : SamplerEnv d B Φ} {rnd : Rnd d Φ} {s s' : Sampler d B Φ} {i : ℕ}
    (hs : ProperTemps s) (h : warmupStep e rnd s i = .ok s') : ProperTemps s' := by
  unfold warmupStep at h
  obtain ⟨r, -, h⟩ := bind_ok h
  obtain ⟨b0, hb⟩ := r
  obtain ⟨b, -, h⟩ := bind_ok h
  cases h
  unfold ProperTemps
  simp only [Particles.update, Cols.full, Option.toList, warmupIter]
  refine ⟨by simp [hs.1], fun x hx => ?_⟩
  rcases List.mem_append.mp hx with hx | hx
  · exact hs.2 x hx
  · exact ⟨0, List.mem_singleton.mp hx⟩

/-! ### evidence -/

theorem evidenceOf_shift (c : ℝ) (logl logp logdetj logq : List F) :
    (evidenceOf (logl.map (· + fin c)) logp logdetj logq).1 = (evidenceOf logl logp logdetj logq).1.map (· + fin c) := by
  unfold evidenceOf
  simp only
  induction logl generalizing logp logdetj logq with
  | nil => simp
  | cons l logl ih =>
    cases logp with
    | nil => simp
    | cons p logp =>
      cases logdetj with
      | nil => simp
      | cons j logdetj =>
        cases logq with
        | nil => simp
        | cons q logq =>
          simp only [List.map_cons, List.zipWith_cons_cons, ih]
          rw [add_right_comm l, add_right_comm (l + p), add_fin_sub]

theorem bootstrapErr_shift (c : ℝ) (logw : List F) (n : ℕ) (boot : ℕ → ℕ → ℕ) :
    bootstrapErr (logw.map (· + fin c)) n boot = bootstrapErr logw n boot := by
  unfold bootstrapErr
  rw [← std_add_fin ((List.range (Max.max n 1000)).map fun r =>
    lse ((List.range logw.length).map fun k => logw.getD (boot r k % logw.length) nan) - log (F.ofNat logw.length)) c,
    List.map_map, List.length_map]
  congr 1
  apply List.map_congr_left
  intro r _
  simp only [Function.comp]
  rw [← add_fin_sub, ← lse_add_fin, List.map_map]
  congr 2
  apply List.map_congr_left
  intro k _
  simp only [Function.comp]
  rw [List.getD_eq_getElem?_getD, List.getD_eq_getElem?_getD, List.getElem?_map]
  cases logw[boot r k % logw.length]? <;> rfl

theorem computeEvidence_shift (c : ℝ) (e : SamplerEnv d B Φ) (hp : PoolOk e.like) (rnd : Rnd d Φ) (n : ℕ)
    (s : Sampler d B Φ) :
    computeEvidence (shiftProblem c e) rnd n (shiftSampler c s) = (computeEvidence e rnd n s).map (shiftSampler c) := by
  unfold computeEvidence
  refine bind_shift_id rfl fun inv _ => ?_
  refine bind_shift (logLike_shift c e hp _) fun r _ => ?_
  obtain ⟨logl, bl, hb⟩ := r
  simp only [pure, Except.pure, Except.map]
  congr 1
  have h1 := evidenceOf_shift c logl (keepFinite (e.logPrior (inv.map (·.1))) (e.logPrior (inv.map (·.1))))
    (keepFinite (e.logPrior (inv.map (·.1))) (inv.map (·.2)))
    (keepFinite (e.logPrior (inv.map (·.1))) ((rnd.flowSample s.t s.flow n).map (·.2)))
  have h2 : ∀ a b c' d', (evidenceOf a b c' d').2 = lse (evidenceOf a b c' d').1 - log (F.ofNat (evidenceOf a b c' d').1.length) :=
    fun _ _ _ _ => rfl
  have e1 : (shiftProblem c e).logPrior = e.logPrior := rfl
  have e2 : (shiftSampler c s).t = s.t := rfl
  have e3 : (shiftSampler c s).flow = s.flow := rfl
  simp only [h2, e1, e2, e3, h1, lse_add_fin, bootstrapErr_shift, List.length_map, add_fin_sub]
  rfl

theorem finalEvidence_shift (c : ℝ) (e : SamplerEnv d B Φ) (hp : PoolOk e.like) (rnd : Rnd d Φ) (s : Sampler d B Φ)
    (hs : ProperTemps s) :
    finalEvidence (shiftProblem c e) rnd (shiftSampler c s) = (finalEvidence e rnd s).map (shiftSampler c) := by
  unfold finalEvidence
  by_cases h : s.nEvidence > 0 ∧ e.preconditioned = true
  · rw [if_pos h]
    exact (if_pos h).trans (computeEvidence_shift c e hp rnd s.nEvidence s)
  · rw [if_neg h]
    refine (if_neg h).trans ?_
    refine bind_shift (computeLogwLogz_shift c _ hs.1 hs.2 1) fun r _ => ?_
    simp [pure, Except.pure, Except.map, shiftSampler]

/-! ### run -/

theorem notTermination_shift (c : ℝ) (e : SamplerEnv d B Φ) (s : Sampler d B Φ) (hs : ProperTemps s) :
    notTermination (shiftProblem c e) (shiftSampler c s) = notTermination e s := by
  unfold notTermination
  have : essAt (shiftSampler c s).particles.past (shiftProblem c e).metric (fin 1) = essAt s.particles.past e.metric (fin 1) :=
    essAt_shift hs.1 hs.2 _ 1
  rw [this]
  simp only [shiftSampler]
  cases s.cur <;> rfl

theorem andThen_shift (c : ℝ) (a : Trace d B Φ) (f g : Sampler d B Φ → Trace d B Φ)
    (h : ∀ s, a.2 = .ok s → g (shiftSampler c s) = shiftTrace c (f s)) :
    (shiftTrace c a).andThen g = shiftTrace c (a.andThen f) := by
  obtain ⟨l, r⟩ := a
  cases r with
  | error x => rfl
  | ok s =>
    have := h s rfl
    unfold Trace.andThen shiftTrace
    dsimp only [Except.map] at this ⊢
    rw [this]
    unfold shiftTrace
    simp only [List.map_append]
    cases (f s).2 <;> rfl

theorem save_shift (c : ℝ) (k : Option ℕ) (t0 : ℕ) (s : Sampler d B Φ) :
    Trace.save k t0 (shiftSampler c s) = shiftTrace c (Trace.save k t0 s) := by
  have ht : (shiftSampler c s).t = s.t := rfl
  unfold Trace.save saveNow
  rw [ht]
  cases k with
  | none => rfl
  | some k =>
    dsimp only
    split_ifs <;> rfl

theorem warmupLoop_shift (c : ℝ) (e : SamplerEnv d B Φ) (hp : PoolOk e.like) (rnd : Rnd d Φ) (k : Option ℕ) (t0 n : ℕ) :
    ∀ (i : ℕ) (s : Sampler d B Φ), ProperTemps s →
      warmupLoop (shiftProblem c e) rnd k t0 n i (shiftSampler c s) = shiftTrace c (warmupLoop e rnd k t0 n i s) := by
  induction n with
  | zero => intro i s _; rfl
  | succ n ih =>
    intro i s hs
    simp only [warmupLoop]
    rw [save_shift]
    refine andThen_shift c _ _ _ fun s1 h1 => ?_
    obtain rfl := save_ok h1
    unfold Trace.lift
    rw [warmupStep_shift c e hp rnd _ hs]
    exact andThen_shift c ([], _) _ _ fun s2 h2 => ih (i + 1) s2 (warmupStep_proper hs h2)

theorem warmupLoop_proper {e : SamplerEnv d B Φ} {rnd : Rnd d Φ} {k : Option ℕ} {t0 n : ℕ} :
    ∀ {i : ℕ} {s s' : Sampler d B Φ}, ProperTemps s → (warmupLoop e rnd k t0 n i s).2 = .ok s' → ProperTemps s' := by
  induction n with
  | zero => intro i s s' hs h; cases h; exact hs
  | succ n ih =>
    intro i s s' hs h
    simp only [warmupLoop] at h
    obtain ⟨s1, h1, h'⟩ := andThen_ok h
    obtain rfl := save_ok h1
    obtain ⟨s2, h2, h''⟩ := andThen_ok h'
    exact ih (warmupStep_proper hs h2) h''

theorem smcLoop_shift (c : ℝ) (e : SamplerEnv d B Φ) (hp : PoolOk e.like) (rnd : Rnd d Φ) (fuel : ℕ) (k : Option ℕ)
    (t0 n : ℕ) : ∀ s : Sampler d B Φ, ProperTemps s →
      smcLoop (shiftProblem c e) rnd fuel k t0 n (shiftSampler c s) = shiftTrace c (smcLoop e rnd fuel k t0 n s) := by
  induction n with
  | zero =>
    intro s hs
    unfold smcLoop
    rw [notTermination_shift c e s hs]
    cases notTermination e s with
    | error x => rfl
    | ok b => cases b <;> rfl
  | succ n ih =>
    intro s hs
    unfold smcLoop
    rw [notTermination_shift c e s hs]
    cases notTermination e s with
    | error x => rfl
    | ok b =>
      cases b with
      | false => rfl
      | true =>
        dsimp only
        rw [save_shift]
        refine andThen_shift c _ _ _ fun s1 h1 => ?_
        obtain rfl := save_ok h1
        unfold Trace.lift
        rw [smcStep_shift c e hp rnd fuel _ hs]
        exact andThen_shift c ([], _) _ _ fun s2 h2 => ih s2 (smcStep_proper hs h2)

theorem smcLoop_proper {e : SamplerEnv d B Φ} {rnd : Rnd d Φ} {fuel : ℕ} {k : Option ℕ} {t0 n : ℕ} :
    ∀ {s s' : Sampler d B Φ}, ProperTemps s → (smcLoop e rnd fuel k t0 n s).2 = .ok s' → ProperTemps s' := by
  induction n with
  | zero =>
    intro s s' hs h
    unfold smcLoop at h
    cases hn : notTermination e s with
    | error x => rw [hn] at h; cases h
    | ok b => rw [hn] at h; cases b <;> cases h; exact hs
  | succ n ih =>
    intro s s' hs h
    unfold smcLoop at h
    cases hn : notTermination e s with
    | error x => rw [hn] at h; cases h
    | ok b =>
      rw [hn] at h
      cases b with
      | false => cases h; exact hs
      | true =>
        dsimp only at h
        obtain ⟨s1, h1, h'⟩ := andThen_ok h
        obtain rfl := save_ok h1
        obtain ⟨s2, h2, h''⟩ := andThen_ok h'
        exact ih (smcStep_proper hs h2) h''

theorem runInit_shift (c : ℝ) (e : SamplerEnv d B Φ) (rnd : Rnd d Φ) (a : RunArgs) (s : Sampler d B Φ) :
    runInit (shiftProblem c e) rnd a (shiftSampler c s) = (runInit e rnd a s).map (shiftSampler c) := by
  unfold runInit
  have : (shiftSampler c s).priorSamples = s.priorSamples := rfl
  dsimp only
  rw [this]
  cases s.priorSamples with
  | some _ => rfl
  | none => exact bind_shift_id rfl fun _ _ => rfl

theorem runInit_past {e : SamplerEnv d B Φ} {rnd : Rnd d Φ} {a : RunArgs} {s s' : Sampler d B Φ}
    (h : runInit e rnd a s = .ok s') : s'.particles = s.particles := by
  unfold runInit at h
  dsimp only at h
  cases hq : s.priorSamples with
  | some _ => rw [hq] at h; cases h; rfl
  | none =>
    rw [hq] at h
    obtain ⟨_, -, h⟩ := bind_ok h
    cases h; rfl

theorem runWarmup_proper {e : SamplerEnv d B Φ} {rnd : Rnd d Φ} {a : RunArgs} {t0 : ℕ} {s1 s2 : Sampler d B Φ}
    (hs1 : ProperTemps s1) (h2 : (runWarmup e rnd a t0 s1).2 = .ok s2) : ProperTemps s2 := by
  unfold runWarmup at h2
  by_cases hw : s1.warmup = true
  · rw [if_pos hw] at h2
    by_cases hn : e.nActive = 0
    · rw [if_pos hn] at h2; cases h2
    · rw [if_neg hn] at h2
      obtain ⟨s', h', h2⟩ := andThen_ok h2
      cases h2
      exact warmupLoop_proper (s' := s') hs1 h'
  · rw [if_neg hw] at h2; cases h2; exact hs1

theorem finalEvidence_past {e : SamplerEnv d B Φ} {rnd : Rnd d Φ} {s s' : Sampler d B Φ}
    (h : finalEvidence e rnd s = .ok s') : s'.particles = s.particles := by
  unfold finalEvidence at h
  split_ifs at h
  · unfold computeEvidence at h
    obtain ⟨_, -, h⟩ := bind_ok h
    obtain ⟨_, -, h⟩ := bind_ok h
    cases h; rfl
  · obtain ⟨_, -, h⟩ := bind_ok h
    cases h; rfl

/-- C73.  Adding a constant to every log-likelihood (log-likelihood `L + c` instead of `L`) changes a whole run, new or
resumed, with the same random numbers, in the stored log-likelihoods and log-evidences only: the stored log-likelihoods
and the final log-evidence are shifted by `c`, the log-evidence of an iteration at temperature `β` by `c β`; the points,
weights, temperatures, step counts, acceptance rates, counters, scaler, flow, log-evidence error, the number and the names
of the state files and any exception are the same.  No value is assumed finite except the recorded temperatures. -/
theorem C73_run_shift (c : ℝ) (e : SamplerEnv d B Φ)
    (hpool : ∀ D, e.like.pool = some D → ∀ f xs, D f xs = xs.mapM f)
    (rnd : Rnd d Φ) (fuel n : ℕ) (a : RunArgs) (s : Sampler d B Φ) (hs : ProperTemps s) :
    run (shiftProblem c e) rnd fuel n a (shiftSampler c s) = shiftTrace c (run e rnd fuel n a s) := by
  unfold run
  dsimp only
  unfold Trace.lift
  rw [runInit_shift]
  refine andThen_shift c ([], _) _ _ fun s1 h1 => ?_
  have hs1 : ProperTemps s1 := by unfold ProperTemps; rw [runInit_past h1]; exact hs
  have ht : (shiftSampler c s).t = s.t := rfl
  have hw : runWarmup (shiftProblem c e) rnd a s.t (shiftSampler c s1) = shiftTrace c (runWarmup e rnd a s.t s1) := by
    unfold runWarmup
    have e1 : (shiftSampler c s1).warmup = s1.warmup := rfl
    have e2 : (shiftProblem c e).nActive = e.nActive := rfl
    rw [e1, e2]
    split_ifs
    · rfl
    · refine Eq.trans (congrArg (fun t => Trace.andThen t _) (warmupLoop_shift c e hpool rnd _ _ _ 0 s1 hs1)) ?_
      exact andThen_shift c _ _ _ fun s2 _ => rfl
    · rfl
  rw [ht, hw]
  refine andThen_shift c _ _ _ fun s2 h2 => ?_
  have hs2 := runWarmup_proper hs1 h2
  rw [smcLoop_shift c e hpool rnd fuel _ _ _ s2 hs2]
  refine andThen_shift c _ _ _ fun s3 h3 => ?_
  rw [finalEvidence_shift c e hpool rnd s3 (smcLoop_proper hs2 h3)]
  refine andThen_shift c ([], _) _ _ fun s4 _ => ?_
  cases a.saveEvery <;> rfl

/-- C73 for a new sampler: there is nothing recorded yet, so both runs start from the same object. -/
theorem C73_fresh (c : ℝ) (e : SamplerEnv d B Φ) (hpool : ∀ D, e.like.pool = some D → ∀ f xs, D f xs = xs.mapM f)
    (rnd : Rnd d Φ) (fuel n : ℕ) (a : RunArgs) (s : Sampler d B Φ)
    (h1 : s.particles = Particles.init) (h2 : s.cur = none) (h3 : s.logz = none) :
    run (shiftProblem c e) rnd fuel n a s = shiftTrace c (run e rnd fuel n a s) := by
  have hs : shiftSampler c s = s := by
    unfold shiftSampler
    rw [h1, h2, h3]
    obtain ⟨⟩ := s
    simp only at h1 h2 h3
    subst h1 h2 h3
    rfl
  have := C73_run_shift c e hpool rnd fuel n a s (by rw [ProperTemps, h1]; exact ⟨rfl, fun b hb => by cases hb⟩)
  rwa [hs] at this

theorem postCollect_shift (c : ℝ) (a : PostArgs) (s : Sampler d B Φ) (hs : ProperTemps s) :
    postCollect a (shiftSampler c s) = (postCollect a s).map fun p => { p with logl := p.logl.map (· + fin c) } := by
  unfold postCollect
  have : (shiftSampler c s).haveBlobs = s.haveBlobs := rfl
  rw [this]
  split_ifs
  · rfl
  refine bind_shift_id rfl fun _ _ => bind_shift (getFlat_shift c _) fun _ _ => bind_shift_id rfl fun _ _ =>
    bind_shift_id rfl fun _ _ => ?_
  exact bind_shift (computeLogwLogz_shift c _ hs.1 hs.2 1) fun _ _ => rfl

theorem postTrim_shift (c : ℝ) (a : PostArgs) (p : Post d B) :
    postTrim a { p with logl := p.logl.map (· + fin c) } =
      (postTrim a p).map fun p => { p with logl := p.logl.map (· + fin c) } := by
  unfold postTrim
  split_ifs
  · refine bind_shift_id rfl fun _ _ => bind_shift_id rfl fun _ _ => bind_shift (gather_map _ _ _) fun _ _ => ?_
    exact bind_shift_id rfl fun _ _ => bind_shift_id rfl fun _ _ => bind_shift_id rfl fun _ _ => rfl
  · rfl

theorem postReturn_shift (c : ℝ) (k : ResampleKind) (us : ℕ → ℝ) (u : ℝ) (a : PostArgs) (p : Post d B) :
    postReturn k us u a { p with logl := p.logl.map (· + fin c) } =
      (postReturn k us u a p).map fun p => { p with logl := p.logl.map (· + fin c) } := by
  unfold postReturn
  split_ifs
  · refine bind_shift_id (by cases k <;> rfl) fun _ _ => bind_shift_id rfl fun _ _ => bind_shift (gather_map _ _ _) fun _ _ => ?_
    exact bind_shift_id rfl fun _ _ => bind_shift_id rfl fun _ _ => rfl
  · rfl
  · rfl

/-- C73, what the user reads off afterwards: `posterior` with any options returns the same samples, weights, log-priors and
blobs, with the log-likelihoods shifted by `c`; `evidence` returns the log-evidence shifted by `c`, with the same error. -/
theorem C73_outputs (c : ℝ) (e : SamplerEnv d B Φ) (us : ℕ → ℝ) (u : ℝ) (a : PostArgs) (s : Sampler d B Φ)
    (hs : ProperTemps s) :
    posterior (shiftProblem c e) us u a (shiftSampler c s) =
        (posterior e us u a s).map (fun o => { o with logl := o.logl.map (· + fin c) }) ∧
      evidence (shiftSampler c s) = ((evidence s).1.map (· + fin c), (evidence s).2) := by
  refine ⟨?_, rfl⟩
  unfold posterior
  refine bind_shift (postCollect_shift c a s hs) fun p _ => bind_shift (postTrim_shift c a p) fun p _ => ?_
  exact postReturn_shift c _ us u a p

/-- The recorded temperatures of every state a run can end in are numbers, so C73 goes on applying. -/
theorem C73_proper {e : SamplerEnv d B Φ} {rnd : Rnd d Φ} {fuel n : ℕ} {a : RunArgs} {s s' : Sampler d B Φ}
    (hs : ProperTemps s) (h : (run e rnd fuel n a s).2 = .ok s') : ProperTemps s' := by
  unfold run at h
  obtain ⟨s1, h1, h⟩ := andThen_ok h
  have hs1 : ProperTemps s1 := by unfold ProperTemps; rw [runInit_past h1]; exact hs
  obtain ⟨s2, h2, h⟩ := andThen_ok h
  have hs2 := runWarmup_proper hs1 h2
  obtain ⟨s3, h3, h⟩ := andThen_ok h
  have hs3 := smcLoop_proper hs2 h3
  obtain ⟨s4, h4, h⟩ := andThen_ok h
  cases h
  unfold ProperTemps
  rw [finalEvidence_past h4]
  exact hs3

/-- A run that ends, with a preconditioned sampler and an evidence estimate: shifting its likelihood by 3 shifts what it
reports by 3. -/
example : ∃ s', (run (Demo.env true) Demo.rnd 0 1 (Demo.args 5) Demo.start).2 = .ok s' ∧ ProperTemps s' ∧
    (run (shiftProblem 3 (Demo.env true)) Demo.rnd 0 1 (Demo.args 5) Demo.start).2 = .ok (shiftSampler 3 s') := by
  obtain ⟨s', -, h, -⟩ := Demo.first_run true 5
  refine ⟨s', h, C73_proper ⟨rfl, fun b hb => by cases hb⟩ h, ?_⟩
  rw [C73_fresh 3 (Demo.env true) (fun D hD => by cases hD) Demo.rnd 0 1 (Demo.args 5) Demo.start rfl rfl rfl]
  simp only [shiftTrace, h, Except.map]

end Poco
