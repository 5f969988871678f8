import Verif.Lemmas.Run
import Verif.Lemmas.Support

/-! # Properties of the warm-up -/

namespace Poco
open F Spec

variable {d : ℕ} {B Φ : Type}

/-- The arrays of a batch are the columns of these particles. -/
structure Spec.BatchRows (hb : Bool) (b : Batch d B) (rows : List (Row d (List B))) : Prop where
  u : b.u = rows.map (·.u)
  x : b.x = rows.map (·.x)
  logdetj : b.logdetj = rows.map (·.logdetj)
  logl : b.logl = rows.map (·.logl)
  logp : b.logp = rows.map (·.logp)
  blobs : b.blobs = if hb then some (rows.map (·.blob)) else none

/-! ### copying rows -/

theorem copyRows_map {α β : Type} (rows : List α) (f : α → β) (dst src : List ℕ) :
    copyRows (rows.map f) dst src = (copyRows rows dst src).map (List.map f) := by
  unfold copyRows
  rw [gather_map]
  cases gather rows src with
  | error x => rfl
  | ok vals =>
    simp only [Except.map, bind, Except.bind, pure, Except.pure, Except.ok.injEq]
    induction dst generalizing rows vals with
    | nil => simp
    | cons i dst ih =>
      cases vals with
      | nil => simp
      | cons v vals =>
        simp only [List.map_cons, List.zip_cons_cons, List.foldl_cons]
        rw [← List.map_set]
        exact ih _ _

theorem foldl_set_length {α : Type} (l : List (ℕ × α)) (a : List α) :
    (l.foldl (fun a q => a.set q.1 q.2) a).length = a.length := by
  induction l generalizing a with
  | nil => rfl
  | cons q l ih => rw [List.foldl_cons, ih]; simp

theorem foldl_set_other {α : Type} (l : List (ℕ × α)) (a : List α) (k : ℕ) (h : ∀ q ∈ l, q.1 ≠ k) :
    (l.foldl (fun a q => a.set q.1 q.2) a)[k]? = a[k]? := by
  induction l generalizing a with
  | nil => rfl
  | cons q l ih =>
    rw [List.foldl_cons, ih _ fun q' hq' => h q' (by simp [hq']), List.getElem?_set_ne (h q (by simp))]

theorem foldl_set_hit {α : Type} (l : List (ℕ × α)) (a : List α) (k : ℕ) (hk : k < a.length) (h : ∃ q ∈ l, q.1 = k) :
    ∃ q ∈ l, q.1 = k ∧ (l.foldl (fun a q => a.set q.1 q.2) a)[k]? = some q.2 := by
  induction l generalizing a with
  | nil => obtain ⟨q, hq, -⟩ := h; simp at hq
  | cons q l ih =>
    rw [List.foldl_cons]
    by_cases hl : ∃ q' ∈ l, q'.1 = k
    · obtain ⟨q', h1, h2, h3⟩ := ih (a.set q.1 q.2) (by simpa using hk) hl
      exact ⟨q', by simp [h1], h2, h3⟩
    · push Not at hl
      obtain ⟨q', hq', he⟩ := h
      rcases List.mem_cons.mp hq' with rfl | hq'
      · refine ⟨q', by simp, he, ?_⟩
        rw [foldl_set_other l _ k hl, ← he, List.getElem?_set_self (by omega)]
      · exact absurd he (hl q' hq')

/-- `a[dst] = a[src]`. -/
theorem copyRows_spec {α : Type} (rows : List α) (dst src : List ℕ) (hlen : src.length = dst.length)
    (hsrc : ∀ i ∈ src, i < rows.length) :
    ∃ rows', copyRows rows dst src = .ok rows' ∧ rows'.length = rows.length ∧
      (∀ k, k ∉ dst → rows'[k]? = rows[k]?) ∧
      (∀ k ∈ dst, k < rows.length → ∃ i ∈ src, rows'[k]? = rows[i]?) := by
  have hg : gather rows src = .ok (src.pmap (fun i hi => rows[i]) hsrc) := by
    unfold gather
    clear hlen
    induction src with
    | nil => rfl
    | cons i src ih =>
      rw [List.mapM_cons, ih fun j hj => hsrc j (by simp [hj])]
      simp [List.getElem?_eq_getElem (hsrc i (by simp)), bind, Except.bind, pure, Except.pure]
  refine ⟨(dst.zip (src.pmap (fun i hi => rows[i]) hsrc)).foldl (fun a q => a.set q.1 q.2) rows, ?_, foldl_set_length _ _, ?_, ?_⟩
  · unfold copyRows
    rw [hg]
    rfl
  · intro k hk
    apply foldl_set_other
    intro q hq he
    exact hk (he ▸ (List.of_mem_zip hq).1)
  · intro k hk hlt
    obtain ⟨j, hj, he⟩ := List.mem_iff_getElem.mp hk
    obtain ⟨q, h1, h2, h3⟩ := foldl_set_hit (dst.zip (src.pmap (fun i hi => rows[i]) hsrc)) rows k hlt
      ⟨(dst[j], (src.pmap (fun i hi => rows[i]) hsrc)[j]'(by simp; omega)),
        by rw [List.mem_iff_getElem]; exact ⟨j, by simp; omega, by simp⟩, he⟩
    rw [h3]
    obtain ⟨i, hi, hq⟩ := List.mem_pmap.mp (List.of_mem_zip h1).2
    exact ⟨i, hi, by rw [← hq, List.getElem?_eq_getElem (hsrc i hi)]⟩

/-! ### which rows -/

theorem mem_maskSelect_range (l : List F) (m : F → Bool) (k : ℕ) :
    k ∈ maskSelect (l.map m) (List.range l.length) ↔ ∃ v, l[k]? = some v ∧ m v = true := by
  have h := maskSelect_map m l (List.range l.length) (by simp)
  rw [h]
  simp only [List.mem_map, List.mem_filter, Prod.exists, exists_and_right, exists_eq_right]
  constructor
  · rintro ⟨v, hm, hv⟩
    refine ⟨v, ?_, hv⟩
    obtain ⟨j, hj, he⟩ := List.mem_iff_getElem.mp hm
    simp only [List.getElem_zip, List.getElem_range, Prod.mk.injEq] at he
    obtain ⟨rfl, rfl⟩ := he
    exact List.getElem?_eq_getElem _
  · rintro ⟨v, h1, h2⟩
    obtain ⟨hk, hv⟩ := List.getElem?_eq_some_iff.mp h1
    refine ⟨v, ?_, h2⟩
    rw [List.mem_iff_getElem]
    exact ⟨k, by simpa using hk, by simp [hv]⟩

/-- `C46_replace` with the test the code makes. -/
theorem replace_isinf (hb : Bool) (b : Batch d B) (rows : List (Row d (List B))) (h : BatchRows hb b rows) (draw : ℕ → ℕ) :
    ((∀ r ∈ rows, r.logl.isinf = true) → rows ≠ [] → replaceInf b hb draw = .error .valueError) ∧
    (((∃ r ∈ rows, r.logl.isinf = false) ∨ rows = []) →
      ∃ b' rows', replaceInf b hb draw = .ok b' ∧ BatchRows hb b' rows' ∧ rows'.length = rows.length ∧
        ∀ (k : ℕ) (r : Row d (List B)), rows[k]? = some r →
          (r.logl.isinf = false → rows'[k]? = some r) ∧
          (r.logl.isinf = true → ∃ r' ∈ rows, r'.logl.isinf = false ∧ rows'[k]? = some r')) := by
  have hinf : ∀ k, k ∈ maskSelect (b.logl.map F.isinf) (List.range b.logl.length) ↔
      ∃ r, rows[k]? = some r ∧ r.logl.isinf = true := by
    intro k
    rw [mem_maskSelect_range, h.logl]
    simp only [List.getElem?_map, Option.map_eq_some_iff]
    constructor
    · rintro ⟨v, ⟨r, h1, rfl⟩, h2⟩; exact ⟨r, h1, h2⟩
    · rintro ⟨r, h1, h2⟩; exact ⟨_, ⟨r, h1, rfl⟩, h2⟩
  have hfin : ∀ k, k ∈ maskSelect ((b.logl.map F.isinf).map (!·)) (List.range b.logl.length) ↔
      ∃ r, rows[k]? = some r ∧ r.logl.isinf = false := by
    intro k
    rw [List.map_map]
    rw [mem_maskSelect_range, h.logl]
    simp only [List.getElem?_map, Option.map_eq_some_iff, Function.comp_apply, Bool.not_eq_true']
    constructor
    · rintro ⟨v, ⟨r, h1, rfl⟩, h2⟩; exact ⟨r, h1, h2⟩
    · rintro ⟨r, h1, h2⟩; exact ⟨_, ⟨r, h1, rfl⟩, h2⟩
  constructor
  · intro hall hne
    have h1 : maskSelect ((b.logl.map F.isinf).map (!·)) (List.range b.logl.length) = [] := by
      rw [List.eq_nil_iff_forall_not_mem]
      intro k hk
      obtain ⟨r, hr, hr'⟩ := (hfin k).mp hk
      rw [hall r (List.mem_of_getElem? hr)] at hr'
      cases hr'
    have h2 : maskSelect (b.logl.map F.isinf) (List.range b.logl.length) ≠ [] := by
      obtain ⟨r, rs, rfl⟩ := List.exists_cons_of_ne_nil hne
      exact List.ne_nil_of_mem ((hinf 0).mpr ⟨r, rfl, hall r (by simp)⟩)
    simp only [replaceInf, infDonors, if_neg h2, h1, if_true]
    rfl
  · intro hex
    by_cases h2 : maskSelect (b.logl.map F.isinf) (List.range b.logl.length) = []
    · refine ⟨b, rows, ?_, h, rfl, fun k r hr => ⟨fun _ => hr, fun hi => ?_⟩⟩
      · simp only [replaceInf, infDonors, if_pos h2]
        rfl
      · have := (hinf k).mpr ⟨r, hr, hi⟩
        rw [h2] at this
        simp at this
    · have h3 : maskSelect ((b.logl.map F.isinf).map (!·)) (List.range b.logl.length) ≠ [] := by
        rcases hex with ⟨r, hr, hi⟩ | rfl
        · obtain ⟨k, hk, he⟩ := List.mem_iff_getElem.mp hr
          exact List.ne_nil_of_mem ((hfin k).mpr ⟨r, by rw [List.getElem?_eq_getElem hk, he], hi⟩)
        · exfalso
          obtain ⟨k, hk⟩ := List.exists_mem_of_ne_nil _ h2
          obtain ⟨r, hr, -⟩ := (hinf k).mp hk
          simp at hr
      generalize hD : maskSelect (b.logl.map F.isinf) (List.range b.logl.length) = dst at *
      generalize hF : maskSelect ((b.logl.map F.isinf).map (!·)) (List.range b.logl.length) = fins at *
      obtain ⟨src, hsrc⟩ : ∃ src, src = (List.range dst.length).map fun k => fins.getD (draw k % fins.length) 0 := ⟨_, rfl⟩
      have hmem : ∀ i ∈ src, i ∈ fins := by
        intro i hi
        rw [hsrc] at hi
        obtain ⟨k, -, rfl⟩ := List.mem_map.mp hi
        have hlt : draw k % fins.length < fins.length := Nat.mod_lt _ (List.length_pos_of_ne_nil h3)
        rw [List.getD_eq_getElem?_getD, List.getElem?_eq_getElem hlt]
        exact List.getElem_mem hlt
      have hlt : ∀ i ∈ src, i < rows.length := by
        intro i hi
        obtain ⟨r, hr, -⟩ := (hfin i).mp (hmem i hi)
        exact (List.getElem?_eq_some_iff.mp hr).1
      obtain ⟨rows', c1, c2, c3, c4⟩ := copyRows_spec rows dst src (by rw [hsrc]; simp) hlt
      have hdon : infDonors b.logl draw = .ok (dst, src) := by
        simp only [infDonors, hD, hF, if_neg h2, if_neg h3, hsrc]
      refine ⟨⟨rows'.map (·.x), rows'.map (·.u), rows'.map (·.logdetj), rows'.map (·.logp), rows'.map (·.logl),
        if hb then some (rows'.map (·.blob)) else none⟩, rows', ?_, ⟨rfl, rfl, rfl, rfl, rfl, rfl⟩, c2, ?_⟩
      · unfold replaceInf
        rw [hdon]
        simp only [bind, Except.bind, if_neg h2, h.x, h.u, h.logdetj, h.logp, h.logl, copyRows_map, c1,
          Except.map, pure, Except.pure, copyBlobs, h.blobs]
        cases hb
        · simp
        · simp only [if_true, orErr, copyRows_map, c1, Except.map]
      · intro k r hr
        constructor
        · intro hi
          rw [c3 k, hr]
          intro hk
          obtain ⟨r', hr', hi'⟩ := (hinf k).mp hk
          rw [hr] at hr'
          simp only [Option.some.injEq] at hr'
          subst hr'
          rw [hi] at hi'
          cases hi'
        · intro hi
          obtain ⟨i, hi1, hi2⟩ := c4 k ((hinf k).mpr ⟨r, hr, hi⟩) (List.getElem?_eq_some_iff.mp hr).1
          obtain ⟨r', hr', hf⟩ := (hfin i).mp (hmem i hi1)
          exact ⟨r', List.mem_of_getElem? hr', hf, by rw [hi2, hr']⟩

/-- An infinite value, of either sign. -/
def Spec.IsInf (v : F) : Prop := v = ninf ∨ v = pinf

theorem isinf_iff (v : F) : v.isinf = true ↔ IsInf v := by
  cases v <;> simp [F.isinf, IsInf]

theorem isinf_false_iff (v : F) : v.isinf = false ↔ ¬ IsInf v := by
  rw [← isinf_iff, Bool.not_eq_true]

/-- **C46.** The replacement of prior particles with infinite log-likelihood.  If every particle of a non-empty batch is
infinite it raises ValueError.  Otherwise it succeeds: every finite particle stays as it was, in its place, and every
infinite one becomes a complete copy of one of the finite particles of the batch. -/
theorem C46_replace (hb : Bool) (b : Batch d B) (rows : List (Row d (List B))) (h : BatchRows hb b rows) (draw : ℕ → ℕ) :
    ((∀ r ∈ rows, IsInf r.logl) → rows ≠ [] → replaceInf b hb draw = .error .valueError) ∧
    (((∃ r ∈ rows, ¬ IsInf r.logl) ∨ rows = []) →
      ∃ b' rows', replaceInf b hb draw = .ok b' ∧ BatchRows hb b' rows' ∧ rows'.length = rows.length ∧
        ∀ (k : ℕ) (r : Row d (List B)), rows[k]? = some r →
          (¬ IsInf r.logl → rows'[k]? = some r) ∧
          (IsInf r.logl → ∃ r' ∈ rows, ¬ IsInf r'.logl ∧ rows'[k]? = some r')) := by
  have := replace_isinf hb b rows h draw
  simp only [isinf_iff, isinf_false_iff] at this
  exact this

/-- Consequence: no infinite log-likelihood is left, and only particles of the batch are there. -/
theorem replaceInf_ok {hb : Bool} {b b' : Batch d B} {rows : List (Row d (List B))} (h : BatchRows hb b rows)
    {draw : ℕ → ℕ} (hr : replaceInf b hb draw = .ok b') :
    ∃ rows', BatchRows hb b' rows' ∧ rows'.length = rows.length ∧ (∀ r ∈ rows', r ∈ rows) ∧
      ∀ r ∈ rows', r.logl.isinf = false := by
  obtain ⟨h1, h2⟩ := replace_isinf hb b rows h draw
  have hex : (∃ r ∈ rows, r.logl.isinf = false) ∨ rows = [] := by
    by_contra hcon
    push Not at hcon
    have := h1 (fun r hr => by simpa using hcon.1 r hr) hcon.2
    rw [this] at hr
    cases hr
  obtain ⟨b'', rows', k1, k2, k3, k4⟩ := h2 hex
  rw [k1] at hr
  simp only [Except.ok.injEq] at hr
  subst hr
  have key : ∀ r' ∈ rows', r' ∈ rows ∧ r'.logl.isinf = false := by
    intro r' hr'
    obtain ⟨k, hk, rfl⟩ := List.mem_iff_getElem.mp hr'
    have hk' : k < rows.length := by omega
    obtain ⟨q1, q2⟩ := k4 k rows[k] (List.getElem?_eq_getElem hk')
    cases hi : rows[k].logl.isinf with
    | false =>
      have := q1 hi
      rw [List.getElem?_eq_getElem hk] at this
      simp only [Option.some.injEq] at this
      rw [this]
      exact ⟨List.getElem_mem _, hi⟩
    | true =>
      obtain ⟨r'', m1, m2, m3⟩ := q2 hi
      rw [List.getElem?_eq_getElem hk] at m3
      simp only [Option.some.injEq] at m3
      rw [m3]
      exact ⟨m1, m2⟩
  exact ⟨rows', k2, k3, fun r hr => (key r hr).1, fun r hr => (key r hr).2⟩

/-! ### a batch of prior samples -/

/-- The log-likelihood is a number, or `-inf`, everywhere: the contract of a log-likelihood. -/
def Spec.ProperLike (ll : Pt d → F) : Prop := ∀ x, ll x = ninf ∨ ∃ r, ll x = fin r

/-- What is known of every stored particle: its values belong to its point; the point is finite; if the user's
log-likelihood is proper, the stored one is finite. -/
def Spec.GoodRow (s : Scaler d) (ll lp : Pt d → F) (bb : Pt d → B) (hb : Bool) (r : Row d B) : Prop :=
  r.Belongs s ll lp bb hb ∧ (∃ u : Fin d → ℝ, r.u = pt u) ∧ (ProperLike ll → ∃ l, r.logl = fin l)

theorem warmupBatch_ok {e : SamplerEnv d B Φ} {ll lp : Pt d → F} {bb : Pt d → List B} {hb : Bool}
    (hu : UserFns e ll lp bb hb) {s : Sampler d B Φ} (hs : s.scaler.Ok) {xs : List (Fin d → ℝ)}
    (hps : s.priorSamples = some (xs.map pt)) (hin : ∀ x ∈ xs, StrictlyInside s.scaler.low s.scaler.high x) (i : ℕ)
    (hne : (xs.drop (i * e.nActive)).take e.nActive ≠ []) :
    ∃ b rows, warmupBatch e s i = .ok (b, s.haveBlobs || hb) ∧ BatchRows hb b rows ∧
      b.x = ((xs.drop (i * e.nActive)).take e.nActive).map pt ∧
      ∀ r ∈ rows, r.Belongs s.scaler ll lp bb hb ∧ ∃ u : Fin d → ℝ, r.u = pt u := by
  obtain ⟨G, Fw, J, h1, -, -, -, h5, -⟩ := hs.real
  obtain ⟨ys, hys⟩ : ∃ ys, ys = (xs.drop (i * e.nActive)).take e.nActive := ⟨_, rfl⟩
  rw [← hys] at hne ⊢
  have hyin : ∀ y ∈ ys, StrictlyInside s.scaler.low s.scaler.high y := by
    intro y hy
    rw [hys] at hy
    exact hin y (List.mem_of_mem_drop (List.mem_of_mem_take hy))
  have hx : ((xs.map pt).drop (i * e.nActive)).take e.nActive = ys.map pt := by
    rw [hys, List.map_take, List.map_drop]
  have hf : s.scaler.forward (ys.map pt) = .ok (ys.map fun y => pt (Fw y)) := by
    unfold Scaler.forward
    rw [withinInterval_strict hs.1 ys hyin]
    simp only [Bool.not_true, Bool.and_false, Bool.false_eq_true, if_false]
    rw [List.mapM_map]
    exact mapM_ok _ _ _ fun y hy => (h5 y (hyin y hy)).1
  have hi : s.scaler.inverse (ys.map fun y => pt (Fw y)) = .ok (ys.map fun y => (pt y, fin (Real.log |(J (Fw y)).det|))) := by
    unfold Scaler.inverse
    rw [List.mapM_map]
    refine mapM_ok _ _ _ fun y hy => ?_
    have := h1 (Fw y)
    rw [(h5 y (hyin y hy)).2] at this
    exact this
  have hl := hu.like (ys.map pt) (by simpa using hne)
  obtain ⟨D, hD⟩ : ∃ D : (Fin d → ℝ) → ℝ, D = fun y => Real.log |(J (Fw y)).det| := ⟨_, rfl⟩
  have hD' : ∀ y, Real.log |(J (Fw y)).det| = D y := fun y => by rw [hD]
  simp only [hD'] at hi
  refine ⟨Batch.mk (ys.map pt) (ys.map fun y => pt (Fw y)) (ys.map fun y => fin (D y)) (ys.map fun y => lp (pt y))
    (ys.map fun y => ll (pt y)) (if hb then some (ys.map fun y => bb (pt y)) else none),
    ys.map fun y => Row.mk (pt (Fw y)) (pt y) (fin (D y)) (ll (pt y)) (lp (pt y)) (bb (pt y)), ?_, ?_, ?_, ?_⟩
  · simp only [warmupBatch, hps, orErr, bind, Except.bind, hx, hf, hi, hl, pure, Except.pure, hu.prior, List.map_map]
    rfl
  · constructor <;> simp only [List.map_map] <;> rfl
  · rfl
  · intro r hr
    obtain ⟨y, hy, rfl⟩ := List.mem_map.mp hr
    refine ⟨⟨?_, rfl, rfl, fun _ => rfl⟩, Fw y, rfl⟩
    have := h1 (Fw y)
    rw [(h5 y (hyin y hy)).2, hD'] at this
    exact this

/-- **C46/C65, one warm-up iteration.** -/
theorem warmupStep_ok {e : SamplerEnv d B Φ} {ll lp : Pt d → F} {bb : Pt d → List B} {hb : Bool}
    (hu : UserFns e ll lp bb hb) {s s' : Sampler d B Φ} (hs : s.scaler.Ok) (hsb : s.haveBlobs = true → hb = true)
    {xs : List (Fin d → ℝ)} {rnd : Rnd d Φ}
    (hps : s.priorSamples = some (xs.map pt)) (hin : ∀ x ∈ xs, StrictlyInside s.scaler.low s.scaler.high x) (i : ℕ)
    (hn : 0 < e.nActive) (hi : (i + 1) * e.nActive ≤ xs.length)
    (h : warmupStep e rnd s i = .ok s') :
    ∃ (b : Batch d B) (rows : List (Row d (List B))) (ys : List (Fin d → ℝ)), rows.length = e.nActive ∧
      IsRows hb (warmupIter b e.nActive s.t (s.calls + e.nActive) s.nEffective) rows ∧
      (∀ r ∈ rows, GoodRow s.scaler ll lp bb hb r ∧ r.logl.isinf = false) ∧
      ys.length = xs.length ∧ (∀ y ∈ ys, y ∈ xs) ∧
      s' = { s with priorSamples := some (ys.map pt)
                    haveBlobs := hb
                    calls := s.calls + e.nActive
                    cur := some { it := warmupIter b e.nActive s.t (s.calls + e.nActive) s.nEffective, weights := none }
                    particles := s.particles.update (Cols.full (warmupIter b e.nActive s.t (s.calls + e.nActive) s.nEffective))
                    t := s.t + 1
                    evals := s.evals ++ ((xs.drop (i * e.nActive)).take e.nActive).map pt } := by
  have hlen : ((xs.drop (i * e.nActive)).take e.nActive).length = e.nActive := by
    rw [List.length_take, List.length_drop]
    have : (i + 1) * e.nActive = i * e.nActive + e.nActive := by ring
    omega
  have hne : (xs.drop (i * e.nActive)).take e.nActive ≠ [] := by
    intro hcon
    rw [hcon] at hlen
    simp at hlen
    omega
  obtain ⟨b0, rows, k1, k2, k3, k4⟩ := warmupBatch_ok hu hs hps hin i hne
  have hhb : (s.haveBlobs || hb) = hb := by
    cases hv : s.haveBlobs
    · rfl
    · rw [hsb hv]; rfl
  rw [hhb] at k1
  unfold warmupStep at h
  rw [k1] at h
  obtain ⟨p, hp, h⟩ := bind_ok h
  simp only [Except.ok.injEq] at hp
  subst hp
  obtain ⟨b, hb', h⟩ := bind_ok h
  simp only [pure, Except.pure, Except.ok.injEq] at h
  obtain ⟨rows', m1, m2, m3, m4⟩ := replaceInf_ok k2 hb'
  have hrl : rows.length = e.nActive := by
    have := congrArg List.length (k2.x.symm.trans k3)
    rw [List.length_map, List.length_map, hlen] at this
    exact this
  have hx0 : ∀ r ∈ rows, ∃ y ∈ xs, r.x = pt y := by
    intro r hr
    have : r.x ∈ rows.map (·.x) := List.mem_map_of_mem hr
    rw [← k2.x, k3] at this
    obtain ⟨y, hy, he⟩ := List.mem_map.mp this
    exact ⟨y, List.mem_of_mem_drop (List.mem_of_mem_take hy), he.symm⟩
  obtain ⟨zs, hz1, hz2⟩ : ∃ zs : List (Fin d → ℝ), b.x = zs.map pt ∧ ∀ z ∈ zs, z ∈ xs := by
    rw [m1.x]
    have : ∀ r ∈ rows', ∃ y ∈ xs, r.x = pt y := fun r hr => hx0 r (m3 r hr)
    clear * - this
    induction rows' with
    | nil => exact ⟨[], rfl, by simp⟩
    | cons r rs ih =>
      obtain ⟨zs, h1, h2⟩ := ih fun r' hr' => this r' (by simp [hr'])
      obtain ⟨y, hy, he⟩ := this r (by simp)
      refine ⟨y :: zs, by simp [h1, he], ?_⟩
      intro z hz
      rcases List.mem_cons.mp hz with rfl | hz
      · exact hy
      · exact h2 z hz
  have hzl : zs.length = e.nActive := by
    have := congrArg List.length (m1.x.symm.trans hz1)
    simp only [List.length_map] at this
    omega
  refine ⟨b, rows', writeSlice xs (i * e.nActive) zs, by omega, ⟨m1.u, m1.x, m1.logdetj, m1.logl, m1.logp, m1.blobs⟩, ?_, ?_, ?_, ?_⟩
  · intro r hr
    obtain ⟨g1, g2⟩ := k4 r (m3 r hr)
    refine ⟨⟨g1, g2, fun hp => ?_⟩, m4 r hr⟩
    rcases hp r.x with hq | ⟨l, hq⟩
    · have := m4 r hr
      rw [g1.2.2.1, hq] at this
      simp [F.isinf] at this
    · exact ⟨l, by rw [g1.2.2.1, hq]⟩
  · unfold writeSlice
    simp only [List.length_append, List.length_take, List.length_drop, hzl]
    have : (i + 1) * e.nActive = i * e.nActive + e.nActive := by ring
    omega
  · intro y hy
    unfold writeSlice at hy
    simp only [List.mem_append] at hy
    rcases hy with (hy | hy) | hy
    · exact List.mem_of_mem_take hy
    · exact hz2 y hy
    · exact List.mem_of_mem_drop hy
  · rw [← h, hps, k3]
    simp only [Option.map_some, hz1]
    congr 2
    unfold writeSlice
    simp [List.map_take, List.map_drop]

end Poco
