import Verif.Lemmas.Kept
import Verif.Spec.Attempts
import Verif.Props.Run
import Verif.Props.Counts
import Verif.Props.Demo

/-! What is left after a run that raised: C107, C108. -/

namespace Poco
open F Spec

variable {d : ℕ} {B Φ : Type}

section
variable {q : Bool} {e e' : SamplerEnv d B Φ} {ll lp : Pt d → F} {bb : Pt d → List B} {hb : Bool} {s s' : Sampler d B Φ} {rnd : Rnd d Φ}
  {its : List (Iter d (List B))}

theorem copyRows_mem {α : Type} {a a' : List α} {dst src : List ℕ} (h : copyRows a dst src = .ok a') : ∀ y ∈ a', y ∈ a := by
  unfold copyRows at h
  obtain ⟨v, hv, h⟩ := bind_ok h
  simp only [pure, Except.pure, Except.ok.injEq] at h
  subst h
  have hv' : ∀ y ∈ v, y ∈ a := (gather_ok hv).2
  have key : ∀ (l : List (ℕ × α)) (b : List α), (∀ q ∈ l, q.2 ∈ a) → (∀ y ∈ b, y ∈ a) → ∀ y ∈ l.foldl (fun a q => a.set q.1 q.2) b, y ∈ a := by
    intro l
    induction l with
    | nil => intro b _ hb; exact hb
    | cons q l ih =>
      intro b hl hb
      refine ih _ (fun q' hq' => hl q' (by simp [hq'])) fun y hy => ?_
      rcases List.mem_or_eq_of_mem_set hy with hy | rfl
      · exact hb y hy
      · exact hl q (by simp)
  exact key _ a (fun q hq => hv' _ (List.of_mem_zip hq).2) fun y hy => hy

theorem exists_map_of_mem {α β : Type} {f : α → β} {xs : List α} {l : List β} (h : ∀ y ∈ l, y ∈ xs.map f) : ∃ ys : List α, l = ys.map f ∧ ∀ y ∈ ys, y ∈ xs := by
  induction l with
  | nil => exact ⟨[], rfl, by simp⟩
  | cons a l ih =>
    obtain ⟨ys, h1, h2⟩ := ih fun y hy => h y (by simp [hy])
    obtain ⟨x, hx, rfl⟩ := List.mem_map.mp (h a (by simp))
    exact ⟨x :: ys, by simp [h1], by simpa using ⟨hx, h2⟩⟩

theorem WarmTouched.mono (he : Flaky e e') {i : ℕ} (h : WarmTouched e' rnd i s s') : WarmTouched e rnd i s s' := by
  have hn : e'.nActive = e.nActive := by rw [he.1]
  obtain ⟨⟨b0, hb, h1, h2, h3, h4⟩, h6⟩ := h
  rw [hn] at h4
  exact ⟨⟨b0, hb, warmupBatch_mono he h1, h2, h3, h4⟩, h6⟩

theorem LeftAfter.mono (he : Flaky e e') (h : LeftAfter q e' rnd s s') : LeftAfter q e rnd s s' := by
  obtain ⟨m, h1, h2⟩ := h
  have hn : e'.nActive = e.nActive := by rw [he.1]
  have hp : e'.nPrior = e.nPrior := by rw [he.1]
  refine ⟨m, Moves.mono he h1, ?_⟩
  cases h2 with
  | between => exact .between
  | init x h1 h2 => exact .init x h1 (hp ▸ h2)
  | warm i h1 h2 h3 => exact .warm i h1 (by rw [← hn, ← hp]; exact h2) (h3.mono he)
  | smc h1 h2 => exact .smc h1 h2
  | args h => exact .args h
  | made i h1 h2 h3 =>
    obtain ⟨hq, s4, h4, h5⟩ := h3
    exact .made i h1 (by rw [← hn, ← hp]; exact h2) ⟨hq, s4, warmupStep_mono he h4, h5⟩
  | evidence h1 h2 =>
    obtain ⟨s4, h4, h5⟩ := h2
    exact .evidence h1 ⟨s4, finalEvidence_mono he h4, h5⟩

/-- A failure keeps the stored history and what is needed to go on. -/
theorem Kept.left (hu : UserFns e ll lp bb hb) (hc : Configured e) (hd : Draws s.scaler.low s.scaler.high rnd)
    (h : Kept q e ll lp bb hb s its) (hl : Left q e rnd s s') : ∃ more, Kept q e ll lp bb hb s' (its ++ more) ∧ Extends s.particles.past s'.particles.past ∧
      s'.scaler = s.scaler := by
  suffices (∃ it, Kept q e ll lp bb hb s' (its ++ [it]) ∧ Extends s.particles.past s'.particles.past ∧ s'.scaler = s.scaler) ∨
      (Kept q e ll lp bb hb s' its ∧ s'.particles = s.particles ∧ s'.scaler = s.scaler) by
    rcases this with ⟨it, h⟩ | ⟨h1, h2, h3⟩
    · exact ⟨[it], h⟩
    · exact ⟨[], by simpa using h1, by rw [h2]; exact Moves.extends (e := e) (rnd := rnd) (s := s) .refl, h3⟩
  cases hl with
  | between => exact .inr ⟨h, rfl, rfl⟩
  | args ha =>
    have hsc : s'.scaler = s.scaler := by rw [ha]
    have hpa : s'.particles = s.particles := by rw [ha]
    have hcu : s'.cur = s.cur := by rw [ha]
    have hwa : s'.warmup = s.warmup := by rw [ha]
    have hhb : s'.haveBlobs = s.haveBlobs := by rw [ha]
    have hps : s'.priorSamples = s.priorSamples := by rw [ha]
    exact .inr ⟨⟨by rw [hpa]; exact h.past, by rw [hsc]; exact h.rows, by rw [hcu]; exact h.cur, by rw [hcu]; exact h.curOk, h.betas, h.logz, by rw [hhb]; exact h.blobs,
      by rw [hhb]; exact h.blobs', by rw [hsc]; exact h.bounds, by rw [hsc]; exact h.scale, by rw [hps]; exact h.noPrior, by rw [hps, hsc]; exact h.prior, by rw [hwa]; exact h.warm⟩, hpa, hsc⟩
  | made i hw hi hm =>
    obtain ⟨hq, s4, h4, h5⟩ := hm
    obtain ⟨it, k, k2⟩ := h.warmStep hu hc hw hi h4
    have hw4 := (warmupStep_warmup h4).1
    rcases h5 with rfl | rfl
    · refine .inr ⟨⟨h.past, by simp only [k2]; exact h.rows, fun hh => not_quiet hq hh, k.curOk, h.betas, h.logz, fun _ => k.blobs (by simp), k.blobs', k.bounds, k.scale,
        fun hh => absurd (k.noPrior hh) (by simp), k.prior, fun hh => h.warm hw⟩, rfl, k2⟩
    · exact .inl ⟨it, ⟨k.past, k.rows, k.cur, k.curOk, k.betas, k.logz, k.blobs, k.blobs', k.bounds, k.scale, k.noPrior, k.prior, k.warm⟩,
        (show Moves e rnd s s4 from .single (.warm i hw hi h4)).extends, k2⟩
  | evidence hw he =>
    obtain ⟨s4, h4, h5⟩ := he
    obtain ⟨k1, k2⟩ := h.evid hu hw h4
    have hsc : s'.scaler = s.scaler := by rw [h5]
    have hpa : s'.particles = s.particles := by rw [h5]
    have hcu : s'.cur = s.cur := by rw [h5]
    have hwa : s'.warmup = s.warmup := by rw [h5]
    have hhb : s'.haveBlobs = s4.haveBlobs := by rw [h5]
    have hps : s'.priorSamples = s.priorSamples := by rw [h5]
    exact .inr ⟨⟨by rw [hpa]; exact h.past, by rw [hsc]; exact h.rows, by rw [hcu]; exact h.cur, by rw [hcu]; exact h.curOk, h.betas, h.logz, by rw [hhb]; exact k1.blobs,
      by rw [hhb]; exact k1.blobs', by rw [hsc]; exact h.bounds, by rw [hsc]; exact h.scale, by rw [hps]; exact h.noPrior, by rw [hps, hsc]; exact h.prior, by rw [hwa]; exact h.warm⟩, hpa, hsc⟩
  | init x hn hx =>
    exfalso
    obtain ⟨xs, x1, x2, x3, x4⟩ := hd.prior e.nPrior
    have hpos : 1 < e.nPrior := hc.2.2
    obtain ⟨sc', f1, -⟩ := C41_fit_standardises s.scaler h.bounds h.scale xs x3 (by rintro rfl; simp at x2; omega) (x4 hpos)
    rw [← x1, hx] at f1
    cases f1
  | warm i hw hi ht =>
    obtain ⟨⟨b0, hb', h1, h2, h3, h4⟩, h6⟩ := ht
    obtain ⟨ps, p1, p2⟩ := warmupBatch_slice h1
    obtain ⟨hok, xs, rfl, x2, x3⟩ := h.prior ps p1
    have hle : (i + 1) * e.nActive ≤ xs.length := by
      rw [x2]
      exact (Nat.le_div_iff_mul_le hc.1).mp hi
    have e1 : (i + 1) * e.nActive = i * e.nActive + e.nActive := by ring
    have ha := hc.1
    have hlen : b0.x.length = e.nActive := by
      rw [p2, List.length_take, List.length_drop, List.length_map]
      omega
    have hbb : hb' = hb := by
      unfold warmupBatch at h1
      obtain ⟨ps, g1, h1⟩ := bind_ok h1
      obtain ⟨u, g2, h1⟩ := bind_ok h1
      obtain ⟨inv, g3, h1⟩ := bind_ok h1
      obtain ⟨⟨l, bl, hb''⟩, g4, h1⟩ := bind_ok h1
      simp only [pure, Except.pure, Except.ok.injEq, Prod.mk.injEq] at h1
      have hx : (ps.drop (i * e.nActive)).take e.nActive = b0.x := by rw [← h1.1]
      rw [hx, hu.like _ (by intro hcon; rw [hcon] at hlen; simp at hlen; omega)] at g4
      simp only [Except.ok.injEq, Prod.mk.injEq] at g4
      have := h1.2
      rw [← g4.2.2] at this
      have key : ∀ p q r : Bool, (p || q) = r → (p = true → q = true) → r = q := by decide
      exact key _ _ _ this h.blobs'
    have hsc : s'.scaler = s.scaler := by rw [h6]
    have hpa : s'.particles = s.particles := by rw [h6]
    have hcu : s'.cur = s.cur := by rw [h6]
    have hwa : s'.warmup = s.warmup := by rw [h6]
    refine .inr ⟨⟨by rw [hpa]; exact h.past, by rw [hsc]; exact h.rows, by rw [hcu]; exact h.cur, by rw [hcu]; exact h.curOk, h.betas, h.logz, fun _ => h2.trans hbb,
      fun hh => by rw [← hbb, ← h2]; exact hh, by rw [hsc]; exact h.bounds, by rw [hsc]; exact h.scale, fun hh => ?_, ?_, by rw [hwa]; exact h.warm⟩, hpa, hsc⟩
    · rcases h4 with h4 | ⟨_, _, x, -, -, h4⟩
      · rw [h4, p1] at hh; cases hh
      · rw [h4, p1] at hh; cases hh
    · intro ps hps
      rw [hsc]
      refine ⟨hok, ?_⟩
      rcases h4 with h4 | ⟨dst, src, x, -, hcx, h4⟩
      · rw [h4, p1] at hps
        simp only [Option.some.injEq] at hps
        exact ⟨xs, hps.symm, x2, x3⟩
      · rw [h4, p1] at hps
        simp only [Option.map_some, Option.some.injEq] at hps
        have hxl := (copyRows_length hcx).trans hlen
        have hmem : ∀ y ∈ ps, y ∈ xs.map pt := by
          intro y hy
          rw [← hps] at hy
          unfold writeSlice at hy
          rcases List.mem_append.mp hy with hy | hy
          · rcases List.mem_append.mp hy with hy | hy
            · exact List.mem_of_mem_take hy
            · have := copyRows_mem hcx y hy
              rw [p2] at this
              exact List.mem_of_mem_drop (List.mem_of_mem_take this)
          · exact List.mem_of_mem_drop hy
        obtain ⟨ys, y1, y2⟩ := exists_map_of_mem hmem
        refine ⟨ys, y1, ?_, fun y hy => x3 y (y2 y hy)⟩
        have := congrArg List.length y1
        rw [← hps, writeSlice_length _ _ _ (by rw [List.length_map, hxl]; omega), List.length_map, List.length_map] at this
        rw [← this, x2]
  | smc hw ht =>
    obtain ⟨c, c', h1, h2, -, -, h3⟩ := ht
    have hck := h.curOk c h1
    have hcur' : q = true → ∃ it, its.getLast? = some it ∧ SameRest q hb it c'.it := by
      intro hq
      rcases h.cur hq with ⟨g1, -⟩ | ⟨c'', it, g1, g2, g3⟩
      · rw [g1] at h1; cases h1
      · rw [g1] at h1
        simp only [Option.some.injEq] at h1
        subst h1
        have hne : its ≠ [] := by rintro rfl; simp at g2
        rw [h.blobs hne] at h2
        exact ⟨it, g2, g3.trans h2⟩
    have hbl : hb = false → s.haveBlobs = false := fun hf => by
      cases hh : s.haveBlobs with
      | false => rfl
      | true => exact absurd (h.blobs' hh) (by rw [hf]; simp)
    have hsc : s'.scaler = s.scaler := by rw [h3]
    have hpa : s'.particles = s.particles := by rw [h3]
    have hcu : s'.cur = some c' := by rw [h3]
    have hwa : s'.warmup = s.warmup := by rw [h3]
    have hhb : s'.haveBlobs = s.haveBlobs := by rw [h3]
    have hps : s'.priorSamples = s.priorSamples := by rw [h3]
    refine .inr ⟨⟨by rw [hpa]; exact h.past, by rw [hsc]; exact h.rows, fun hq => .inr (by obtain ⟨it, g1, g2⟩ := hcur' hq; exact ⟨c', it, hcu, g1, g2⟩), fun c'' hc'' => by
        rw [hcu] at hc''
        simp only [Option.some.injEq] at hc''
        subst hc''
        exact ⟨fun hf => (h2.blobs (hbl hf)).trans (hck.1 hf), by rw [h2.logw]; exact hck.2⟩, h.betas, h.logz, by rw [hhb]; exact h.blobs, by rw [hhb]; exact h.blobs',
      by rw [hsc]; exact h.bounds, by rw [hsc]; exact h.scale, by rw [hps]; exact h.noPrior, by rw [hps, hsc]; exact h.prior, by rw [hwa]; exact h.warm⟩, hpa, hsc⟩

theorem Kept.leftAfter (hu : UserFns e ll lp bb hb) (hc : Configured e) (hd : Draws s.scaler.low s.scaler.high rnd)
    (h : Kept q e ll lp bb hb s its) (hl : LeftAfter q e rnd s s') :
    ∃ more, Kept q e ll lp bb hb s' (its ++ more) ∧ s'.scaler.low = s.scaler.low ∧ s'.scaler.high = s.scaler.high := by
  obtain ⟨m, h1, h2⟩ := hl
  obtain ⟨more, k1, k2, k3⟩ := h.moves hu hc hd h1
  obtain ⟨more', l1, -, l3⟩ := k1.left hu hc (by rw [k2, k3]; exact hd) h2
  exact ⟨more ++ more', by rw [← List.append_assoc]; exact l1, by rw [l3, k2], by rw [l3, k3]⟩

theorem raised_left {lo : Leftover d Φ} {fuel n : ℕ} {a : RunArgs} {k : Option ℕ} {x : PyErr} (hk : q = true → k = none) (hx : Benign x) (h : Raised (runX e rnd lo fuel n a k s) x s') :
    LeftAfter q e rnd s s' := by
  have := runX_spec (e := e) (rnd := rnd) (lo := lo) (fuel := fuel) (a := a) (n := n) (q := q) s k hk
  rw [h] at this
  rcases this with ⟨-, h | h⟩ | ⟨-, h⟩
  · exact absurd h hx.1
  · exact absurd h hx.2
  · exact h

theorem Spec.Attempts.kept (hu : UserFns e ll lp bb hb) (hc : Configured e) (h : Attempts e hb q s) : ∃ its, Kept q e ll lp bb hb s its := by
  induction h with
  | fresh h => exact ⟨[], (Inv.fresh h).kept⟩
  | ran e' rnd fuel n a _ he hd hr ih =>
    obtain ⟨its, hi⟩ := ih
    obtain ⟨more, k, -⟩ := hi.moves hu hc hd (Moves.mono he ((Along.run fuel n a _).to_end _ hr).1)
    exact ⟨_, k⟩
  | failed e' rnd lo fuel n a k x _ he hd hk hx hr ih =>
    obtain ⟨its, hi⟩ := ih
    obtain ⟨more, k, -⟩ := hi.leftAfter hu hc hd ((raised_left hk hx hr).mono he)
    exact ⟨_, k⟩
  | loaded e' rnd fuel n a sv _ he hd hr ih =>
    obtain ⟨its, hi⟩ := ih
    obtain ⟨more, k, -⟩ := hi.moves hu hc hd (Moves.mono he ((Along.run fuel n a _).from_start sv hr))
    exact ⟨_, k⟩

/-- C107: runs may raise at any point, or be interrupted by the user (`q = false`) at any point but those `Benign` excludes, and be repeated; in every state reached, the stored history consists of complete iterations: `n_active` particles each,
every particle with its own values, finite and strictly inside the bounds; the temperatures are in [0, 1] and do not decrease. -/
theorem C107_history_whole (hu : UserFns e ll lp bb hb) (hc : Configured e) (h : Attempts e hb q s) :
    (∃ its : List (Iter d (List B)), s.particles.past = columns its ∧ ∀ it ∈ its,
      ∃ rows, rows.length = e.nActive ∧ IsRows hb it rows ∧ it.logw.length = e.nActive ∧ ∀ r ∈ rows, r.Belongs s.scaler ll lp bb hb ∧
        ∃ y : Fin d → ℝ, r.x = pt y ∧ StrictlyInside s.scaler.low s.scaler.high y) ∧
    ∃ bs : List ℝ, s.particles.past.beta = bs.map fin ∧ bs.Pairwise (· ≤ ·) ∧ ∀ b ∈ bs, 0 ≤ b ∧ b ≤ 1 := by
  obtain ⟨its, hi⟩ := h.kept hu hc
  refine ⟨⟨its, hi.past, fun it hit => ?_⟩, by rw [hi.past]; exact hi.betas⟩
  obtain ⟨rows, r1, r2, r3, r4⟩ := hi.rows it hit
  refine ⟨rows, r1, r2, r4, fun r hr => ⟨(r3 r hr).1, ?_⟩⟩
  have hok : s.scaler.Ok := by
    cases hps : s.priorSamples with
    | none => rw [hi.noPrior hps] at hit; simp at hit
    | some ps => exact (hi.prior ps hps).1
  obtain ⟨⟨h1, -⟩, ⟨u, hu'⟩, -⟩ := r3 r hr
  rw [hu'] at h1
  obtain ⟨y, ld, h2, h3⟩ := C36_inverse_inside s.scaler hok u
  rw [h2] at h1
  simp only [Except.ok.injEq, Prod.mk.injEq] at h1
  exact ⟨y, h1.1.symm, h3⟩

/-- C107: a run that raises, or is interrupted, removes or changes nothing that was stored before it. -/
theorem C107_nothing_lost (hu : UserFns e ll lp bb hb) (hc : Configured e) (h : Attempts e hb q s) (he : Flaky e e')
    (hd : Draws s.scaler.low s.scaler.high rnd) (lo : Leftover d Φ) (fuel n : ℕ) (a : RunArgs) (k : Option ℕ) (hk : q = true → k = none) (x : PyErr) (hx : Benign x)
    (hr : Raised (runX e' rnd lo fuel n a k s) x s') :
    Extends s.particles.past s'.particles.past ∧ ∀ sv ∈ (run e' rnd fuel n a s).1, Extends s.particles.past sv.state.particles.past := by
  obtain ⟨its, hi⟩ := h.kept hu hc
  obtain ⟨m, h1, h2⟩ := (raised_left hk hx hr).mono he
  obtain ⟨more, k1, k2, k3⟩ := hi.moves hu hc hd h1
  obtain ⟨-, -, l2, -⟩ := k1.left hu hc (by rw [k2, k3]; exact hd) h2
  exact ⟨h1.extends.trans l2, (C14_append_only e' rnd fuel n a s).1⟩

end

end Poco
