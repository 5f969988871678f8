import Verif.Spec.Blobs
import Verif.Props.LogLike
import Verif.Props.Mcmc
import Verif.Lemmas.Run

/-! # C134, C135: blobs and their data types -/

namespace Poco
open F Spec

variable {d : ℕ}

theorem truncate_int (z : ℤ) : truncate (z : ℝ) = z := by
  unfold truncate
  split <;> simp

theorem truncate_eq {r : ℝ} (h : (truncate r : ℝ) = r) : ∃ z : ℤ, r = z := ⟨truncate r, h.symm⟩

/-- Conversion keeps the value exactly when the type can hold it. -/
theorem castVal_same (dt : Dtype) (v : BlobVal) : (∃ w, castVal dt v = .ok w ∧ SameValue v w) ↔ Fits dt v := by
  constructor
  · rintro ⟨w, hw, hs⟩
    cases dt
    · cases v with
      | bool b => cases b <;> simp [Fits, number]
      | int z =>
        simp only [castVal, Except.ok.injEq] at hw
        subst hw
        simp only [SameValue, number, Option.some.injEq, fin_inj, reduceCtorEq, false_and, exists_false, or_false, existsAndEq, true_and] at hs
        simp only [Fits, number, Option.some.injEq, fin_inj]
        by_cases hz : z = 0
        · left; simp [hz]
        · right; simp [hz] at hs; exact_mod_cast hs.symm
      | flt u =>
        cases u with
        | fin r =>
          simp only [castVal, Except.ok.injEq] at hw
          subst hw
          simp only [SameValue, number, Option.some.injEq, fin_inj, reduceCtorEq, false_and, exists_false, or_false, existsAndEq, true_and] at hs
          simp only [Fits, number, Option.some.injEq, fin_inj]
          by_cases hz : r = 0
          · left; exact hz
          · right; simpa [hz] using hs.symm
        | _ =>
          simp only [castVal, Except.ok.injEq] at hw
          subst hw
          simp [SameValue, number] at hs
      | text s => simp [castVal] at hw
    · cases v with
      | bool b => exact ⟨if b then 1 else 0, by cases b <;> simp [number]⟩
      | int z => exact ⟨z, rfl⟩
      | flt u =>
        cases u with
        | fin r =>
          simp only [castVal, Except.ok.injEq] at hw
          subst hw
          simp only [SameValue, number, Option.some.injEq, reduceCtorEq, false_and, exists_false, or_false, existsAndEq, true_and, fin_inj] at hs
          obtain ⟨z, hz⟩ := truncate_eq hs
          exact ⟨z, by rw [number, hz]⟩
        | _ => simp [castVal] at hw
      | text s => simp [castVal] at hw
    · cases v with
      | text s => simp [castVal] at hw
      | _ => exact ⟨_, rfl⟩
    · trivial
  · intro h
    cases dt
    · cases v with
      | bool b => exact ⟨_, rfl, .inl ⟨_, rfl, rfl⟩⟩
      | int z =>
        simp only [Fits, number, Option.some.injEq, fin_inj] at h
        refine ⟨_, rfl, .inl ⟨_, rfl, ?_⟩⟩
        rcases h with h | h
        · have : z = 0 := by exact_mod_cast h
          simp [number, this]
        · have : z = 1 := by exact_mod_cast h
          simp [number, this]
      | flt u =>
        simp only [Fits, number, Option.some.injEq] at h
        rcases h with rfl | rfl
        · exact ⟨_, rfl, .inl ⟨_, rfl, by simp [number]⟩⟩
        · exact ⟨_, rfl, .inl ⟨_, rfl, by simp [number]⟩⟩
      | text s => simp [Fits, number] at h
    · cases v with
      | bool b => exact ⟨_, rfl, .inl ⟨_, rfl, by cases b <;> simp [number]⟩⟩
      | int z => exact ⟨_, rfl, .inl ⟨_, rfl, rfl⟩⟩
      | flt u =>
        obtain ⟨z, hz⟩ := h
        simp only [number, Option.some.injEq] at hz
        subst hz
        exact ⟨_, rfl, .inl ⟨_, rfl, by simp [number, truncate_int]⟩⟩
      | text s => simp [Fits, number] at h
    · cases v with
      | bool b => exact ⟨_, rfl, .inl ⟨_, rfl, rfl⟩⟩
      | int z => exact ⟨_, rfl, .inl ⟨_, rfl, rfl⟩⟩
      | flt u => exact ⟨_, rfl, .inl ⟨_, rfl, rfl⟩⟩
      | text s => simp [Fits, number] at h
    · refine ⟨v, rfl, ?_⟩
      cases v with
      | text s => exact .inr ⟨s, rfl, rfl⟩
      | _ => exact .inl ⟨_, rfl, rfl⟩

theorem mapM_forall₂ {α β : Type} (f : α → Except PyErr β) (R : α → β → Prop) (l : List α) :
    (∃ l', l.mapM f = .ok l' ∧ List.Forall₂ R l l') ↔ ∀ a ∈ l, ∃ b, f a = .ok b ∧ R a b := by
  induction l with
  | nil => exact ⟨fun _ a ha => by simp at ha, fun _ => ⟨[], rfl, .nil⟩⟩
  | cons a l ih =>
    rw [List.mapM_cons]
    constructor
    · rintro ⟨l', h, hf⟩
      obtain ⟨b, hb, h⟩ := bind_ok h
      obtain ⟨l1, h1, h⟩ := bind_ok h
      obtain rfl := Except.ok.inj h
      rw [List.forall₂_cons] at hf
      intro c hc
      rcases List.mem_cons.mp hc with rfl | hc
      · exact ⟨b, hb, hf.1⟩
      · exact ih.mp ⟨l1, h1, hf.2⟩ c hc
    · intro h
      obtain ⟨b, hb, hr⟩ := h a (by simp)
      obtain ⟨l1, h1, hf⟩ := ih.mpr fun c hc => h c (by simp [hc])
      exact ⟨b :: l1, by rw [hb, h1]; rfl, .cons hr hf⟩

theorem mkArray_same (dt : Dtype) (rows : List (List BlobVal)) (k : ℕ) (hk : ∀ r ∈ rows, r.length = k) :
    (∃ a, mkArray dt rows = .ok a ∧ a.dtype = dt ∧ List.Forall₂ SameBlob rows a.rows) ↔ ∀ r ∈ rows, ∀ v ∈ r, Fits dt v := by
  have hr : ¬ (dt ≠ .object ∧ ∃ r ∈ rows, ∃ r' ∈ rows, r.length ≠ r'.length) := by
    rintro ⟨-, r, h1, r', h2, h⟩
    exact h ((hk r h1).trans (hk r' h2).symm)
  rw [mkArray, if_neg hr]
  have key : (∃ rs, (rows.mapM fun r => r.mapM (castVal dt)) = .ok rs ∧ List.Forall₂ SameBlob rows rs) ↔ ∀ r ∈ rows, ∀ v ∈ r, Fits dt v := by
    rw [mapM_forall₂]
    refine forall₂_congr fun r _ => ?_
    unfold SameBlob
    rw [mapM_forall₂]
    exact forall₂_congr fun v _ => castVal_same dt v
  rw [← key]
  constructor
  · rintro ⟨a, h, -, hf⟩
    obtain ⟨rs, h1, rfl⟩ := map_ok h
    exact ⟨rs, h1, hf⟩
  · rintro ⟨rs, h, hf⟩
    exact ⟨⟨dt, rs⟩, by rw [h]; rfl, rfl, hf⟩

theorem logLikeTyped_some {e : LikeEnv d BlobVal} {x : List (Pt d)} {l : List F} {r : List BlobVal} {rs : List (List BlobVal)} {hb : Bool}
    (h : logLike e x = .ok (l, some (r :: rs), hb)) (dt : Option Dtype) :
    logLikeTyped e dt x = (mkArray (dt.getD (rowDtype r)) (r :: rs)).map fun a => (l, some a, hb) := by
  unfold logLikeTyped
  rw [h]
  simp only [bind, Except.bind, List.headD_cons]
  cases mkArray (dt.getD (rowDtype r)) (r :: rs) <;> rfl

/-- **C134**, partial: what `_log_like` makes of the blobs of a batch, the likelihood returning `k ≥ 1` blobs at every point. The data type is
`blobs_dtype`, or else the type of the blob of the *first* point. The blobs of all points are kept with their values exactly when that type can hold
all of them. Missing: that it always can (`C134_truncated`). -/
theorem C134_blob_values_partial (e : LikeEnv d BlobVal) (he : e.vectorize = false) (hp : e.pool = none) (f : Pt d → F) (b : Pt d → List BlobVal) (arr : Bool)
    (p : Pt d) (x : List (Pt d)) (k : ℕ) (hk : 0 < k) (hs : ∀ q ∈ p :: x, e.single q = .ok (.seq arr (f q) (b q)) ∧ (b q).length = k) (dt : Option Dtype) :
    (∃ a, logLikeTyped e dt (p :: x) = .ok ((p :: x).map f, some a, true) ∧ List.Forall₂ SameBlob ((p :: x).map b) a.rows) ↔
      ∀ q ∈ p :: x, ∀ v ∈ b q, Fits (dt.getD (rowDtype (b p))) v := by
  have h0 : logLike e (p :: x) = .ok ((p :: x).map f, some ((p :: x).map b), true) :=
    C52_blobs_aligned_partial e he hp f b arr (p :: x) (by simp) fun q hq =>
      ⟨(hs q hq).1, fun h => by have := (hs q hq).2; rw [h] at this; simp at this; omega⟩
  have h1 : logLikeTyped e dt (p :: x) = (mkArray (dt.getD (rowDtype (b p))) ((p :: x).map b)).map fun a => ((p :: x).map f, some a, true) :=
    logLikeTyped_some h0 dt
  have h2 := mkArray_same (dt.getD (rowDtype (b p))) ((p :: x).map b) k (fun r hr => by
    obtain ⟨q, hq, rfl⟩ := List.mem_map.mp hr
    exact (hs q hq).2)
  have h3 : (∀ q ∈ p :: x, ∀ v ∈ b q, Fits (dt.getD (rowDtype (b p))) v) ↔ ∀ r ∈ (p :: x).map b, ∀ v ∈ r, Fits (dt.getD (rowDtype (b p))) v := by
    simp only [List.forall_mem_map]
  rw [h3, ← h2, h1]
  constructor
  · rintro ⟨a, ha, hf⟩
    obtain ⟨a', h4, h5⟩ := map_ok ha
    simp only [Prod.mk.injEq, Option.some.injEq, true_and, and_true] at h5
    subst h5
    refine ⟨_, h4, ?_, hf⟩
    unfold mkArray at h4
    split at h4
    · cases h4
    · obtain ⟨_, -, rfl⟩ := map_ok h4
      rfl
  · rintro ⟨a, ha, -, hf⟩
    exact ⟨a, by rw [ha]; rfl, hf⟩

/-- **C134** is false: take any likelihood with one blob, that is a Python integer at `p` and a floating-point number `r` at `q`. If `p` comes first in a batch, the
blob of `q` is truncated to an integer; if `q` comes first it is kept. -/
theorem C134_truncated (e : LikeEnv d BlobVal) (he : e.vectorize = false) (hp : e.pool = none) (p q : Pt d) (v w : F) (z : ℤ) (r : ℝ)
    (h1 : e.single p = .ok (.seq false v [.int z])) (h2 : e.single q = .ok (.seq false w [.flt (fin r)])) :
    logLikeTyped e none [p, q] = .ok ([v, w], some ⟨.int, [[.int z], [.int (truncate r)]]⟩, true) ∧
    logLikeTyped e none [q, p] = .ok ([w, v], some ⟨.float, [[.flt (fin r)], [.flt (fin z)]]⟩, true) := by
  have hr : ∀ a b : List BlobVal, a.length = 1 → b.length = 1 → ∀ dt, ¬ (dt ≠ Dtype.object ∧ ∃ r ∈ [a, b], ∃ r' ∈ [a, b], r.length ≠ r'.length) := by
    rintro a b ha hb dt ⟨-, r, h1, r', h2, h⟩
    simp only [List.mem_cons, List.not_mem_nil, or_false] at h1 h2
    rcases h1 with rfl | rfl <;> rcases h2 with rfl | rfl <;> omega
  constructor
  · have : logLike e [p, q] = .ok ([v, w], some [[.int z], [.flt (fin r)]], true) := by
      rw [logLike, he, hp]
      simp only [Bool.false_eq_true, if_false, List.mapM_cons, List.mapM_nil, h1, h2]
      rfl
    rw [logLikeTyped_some this, mkArray, if_neg (hr _ _ rfl rfl _)]
    rfl
  · have : logLike e [q, p] = .ok ([w, v], some [[.flt (fin r)], [.int z]], true) := by
      rw [logLike, he, hp]
      simp only [Bool.false_eq_true, if_false, List.mapM_cons, List.mapM_nil, h1, h2]
      rfl
    rw [logLikeTyped_some this, mkArray, if_neg (hr _ _ rfl rfl _)]
    rfl

/-- A likelihood that computes (for example) 1 at one point and 3/2 at another, as in the theorem above. -/
example : ∃ (e : LikeEnv 1 BlobVal) (p q : Pt 1), logLikeTyped e none [p, q] = .ok ([fin 0, fin 0], some ⟨.int, [[.int 1], [.int 1]]⟩, true) ∧
    e.single q = .ok (.seq false (fin 0) [.flt (fin (3 / 2))]) := by
  classical
  let e : LikeEnv 1 BlobVal := { single := fun x => .ok (.seq false (fin 0) (if x 0 = fin 0 then [.int 1] else [.flt (fin (3 / 2))])), vector := fun _ => .ok [],
                                 vectorize := false, pool := none }
  have h2 : e.single (pt fun _ => 1) = .ok (.seq false (fin 0) [.flt (fin (3 / 2))]) := by simp [e, pt]
  refine ⟨e, pt fun _ => 0, pt fun _ => 1, ?_, h2⟩
  rw [(C134_truncated e rfl rfl (pt fun _ => 0) (pt fun _ => 1) (fin 0) (fin 0) 1 (3 / 2) (by simp [e, pt]) h2).1]
  have : truncate (3 / 2) = 1 := by
    rw [truncate, if_pos (by norm_num), Int.floor_eq_iff]
    norm_num
  rw [this]

/-- The type of a row all of whose entries have one type. -/
theorem rowDtype_uniform {dt : Dtype} {r : List BlobVal} (h : ∀ v ∈ r, v.dtype = dt) (hr : r ≠ []) : rowDtype r = dt := by
  have key : ∀ (r : List BlobVal), (∀ v ∈ r, v.dtype = dt) → (r.map BlobVal.dtype).foldl Dtype.promote dt = dt := by
    intro r
    induction r with
    | nil => intro _; rfl
    | cons v r ih =>
      intro h
      rw [List.map_cons, List.foldl_cons, h v (by simp), show dt.promote dt = dt by cases dt <;> rfl]
      exact ih fun v hv => h v (by simp [hv])
  cases r with
  | nil => exact absurd rfl hr
  | cons v r =>
    rw [rowDtype, List.map_cons, List.foldl_cons, h v (by simp), show Dtype.bool.promote dt = dt by cases dt <;> rfl]
    exact key r fun v hv => h v (by simp [hv])

theorem castVal_own (v : BlobVal) : castVal v.dtype v = .ok v := by cases v <;> rfl

theorem castEntry_own (v : BlobVal) : castEntry v.dtype v = .ok v := by cases v <;> rfl

theorem mapM_id {α : Type} {f : α → Except PyErr α} (l : List α) (h : ∀ a ∈ l, f a = .ok a) : l.mapM f = .ok l := by
  rw [mapM_ok_map (g := id) l h, List.map_id]

/-- A likelihood that returns at every point `k` blobs, all of the type `dt`. -/
structure Uniformly (e : LikeEnv d BlobVal) (f : Pt d → F) (b : Pt d → List BlobVal) (k : ℕ) (dt : Dtype) : Prop where
  serial : e.vectorize = false ∧ e.pool = none
  pos : 0 < k
  single : ∃ arr, ∀ p, e.single p = .ok (.seq arr (f p) (b p))
  length : ∀ p, (b p).length = k
  dtype : ∀ p, ∀ v ∈ b p, v.dtype = dt

theorem Uniformly.array {e : LikeEnv d BlobVal} {f : Pt d → F} {b : Pt d → List BlobVal} {k : ℕ} {dt : Dtype} (h : Uniformly e f b k dt) (x : List (Pt d))
    (hx : x ≠ []) : logLikeTyped e none x = .ok (x.map f, some ⟨dt, x.map b⟩, true) ∧ (k = 1 → BlobArr.flat ⟨dt, x.map b⟩) := by
  have hne : ∀ p, b p ≠ [] := fun p h0 => by have := h.length p; rw [h0] at this; have := h.pos; simp at *; omega
  obtain ⟨arr, hs⟩ := h.single
  refine ⟨?_, fun hk => .inl fun r hr => ?_⟩
  · cases x with
    | nil => exact absurd rfl hx
    | cons p x =>
      have h0 : logLike e (p :: x) = .ok ((p :: x).map f, some ((p :: x).map b), true) :=
        C52_blobs_aligned_partial e h.serial.1 h.serial.2 f b arr (p :: x) (by simp) fun q _ => ⟨hs q, hne q⟩
      rw [logLikeTyped_some h0]
      simp only [Option.getD_none]
      rw [rowDtype_uniform (h.dtype p) (hne p)]
      have hr : ¬ (dt ≠ .object ∧ ∃ r ∈ (p :: x).map b, ∃ r' ∈ (p :: x).map b, r.length ≠ r'.length) := by
        rintro ⟨-, r, h1, r', h2, h3⟩
        obtain ⟨q, -, rfl⟩ := List.mem_map.mp h1
        obtain ⟨q', -, rfl⟩ := List.mem_map.mp h2
        exact h3 ((h.length q).trans (h.length q').symm)
      have hm : mkArray dt (b p :: x.map b) = .ok ⟨dt, (p :: x).map b⟩ := by
        rw [mkArray, if_neg (by rw [List.map_cons] at hr; exact hr), mapM_id]
        · rfl
        · intro r hr
          obtain ⟨q, -, rfl⟩ := List.mem_map.mp (show r ∈ (p :: x).map b from hr)
          exact mapM_id _ fun v hv => by rw [← h.dtype q v hv]; exact castVal_own v
      rw [hm]
      rfl
  · obtain ⟨q, -, rfl⟩ := List.mem_map.mp hr
    exact (h.length q).trans hk

theorem Uniformly.typed {e : LikeEnv d BlobVal} {f : Pt d → F} {b : Pt d → List BlobVal} {k : ℕ} {dt : Dtype} (h : Uniformly e f b k dt) (flat : Prop)
    (hf : ¬ (dt = .object ∧ flat)) (x : List (Pt d)) :
    typedLike e none dt flat x = if x = [] then (castNone dt).map fun _ => ([], none) else .ok (x.map f, some (x.map b)) := by
  classical
  rw [typedLike, if_neg hf]
  cases x with
  | nil =>
    have h0 : logLike e [] = .ok ([], none, false) := by
      rw [logLike, h.serial.1, h.serial.2]
      rfl
    rw [if_pos rfl]
    unfold logLikeTyped
    rw [h0]
    simp only [bind, Except.bind, pure, Except.pure]
    cases castNone dt <;> rfl
  | cons p x =>
    rw [if_neg (by simp), (h.array (p :: x) (by simp)).1]
    simp only [bind, Except.bind]
    rw [mapM_id]
    · rfl
    · intro r hr
      obtain ⟨q, -, rfl⟩ := List.mem_map.mp hr
      exact mapM_id _ fun v hv => by rw [← h.dtype q v hv]; exact castEntry_own v

variable {B : Type}

/-- **C135**, partial: if the likelihood returns at every point the same number `k` of blobs of one type, and the type is not `int`, and the blobs are not single
texts, then a kernel call with blob arrays of that type returns, and it returns exactly what it would if blobs were kept as they are. Missing: single texts
(`C135_text_raises`) and integers (`C135_int_raises`). -/
theorem C135_uniform_partial (e : McmcEnv d (List BlobVal)) (hbl : e.haveBlobs = true) (hb : ProperBounds e.scaler.low e.scaler.high)
    (hf : e.scaler.scale = true → e.scaler.affine ≠ none) (lp : Pt d → F) (hlp : ∀ xs, e.logPrior xs = xs.map lp) (le : LikeEnv d BlobVal) (f : Pt d → F)
    (b : Pt d → List BlobVal) (k : ℕ) (dt : Dtype) (h : Uniformly le f b k dt) (hi : dt ≠ .int) (ho : ¬ (dt = .object ∧ k = 1))
    (fuel : ℕ) (rnd : ℕ → ℕ → Draw d) (ws : List (Walker d (List BlobVal))) :
    ∃ r, mcmc { e with logLike := typedLike le none dt (k = 1) } fuel rnd ws = .ok r ∧
      mcmc { e with logLike := fun xs => (logLike le xs).map fun q => (q.1, q.2.1) } fuel rnd ws = .ok r := by
  have hne : ∀ p, b p ≠ [] := fun p h0 => by have := h.length p; rw [h0] at this; have := h.pos; simp at *; omega
  obtain ⟨arr, hs⟩ := id h.single
  have hN : castNone dt = .ok () := by cases dt <;> first | rfl | exact absurd rfl hi
  have hL : ∀ xs, logLike le xs = if xs = [] then .ok ([], none, false) else .ok (xs.map f, some (xs.map b), true) := by
    intro xs
    by_cases hx : xs = []
    · subst hx
      rw [if_pos rfl, logLike, h.serial.1, h.serial.2]
      rfl
    · rw [if_neg hx]
      exact C52_blobs_aligned_partial le h.serial.1 h.serial.2 f b arr xs hx fun q _ => ⟨hs q, hne q⟩
  have heq : typedLike le none dt (k = 1) = fun xs => (logLike le xs).map fun q => (q.1, q.2.1) := by
    funext xs
    rw [h.typed _ ho, hL]
    by_cases hx : xs = []
    · rw [if_pos hx, if_pos hx, hN]; rfl
    · rw [if_neg hx, if_neg hx]; rfl
  have hrow : RowWise { e with logLike := typedLike le none dt (k = 1) } f lp b := by
    refine ⟨hlp, fun xs => ?_⟩
    simp only [h.typed _ ho]
    by_cases hx : xs = []
    · subst hx
      exact ⟨none, by rw [if_pos rfl, hN]; rfl, fun _ h => absurd rfl h, fun _ _ => .inl rfl⟩
    · exact ⟨_, if_neg hx, fun _ _ => rfl, fun _ h => absurd h hx⟩
  obtain ⟨r, hr, -, -⟩ := C28_terminates { e with logLike := typedLike le none dt (k = 1) } hb hf f lp b hrow fuel rnd ws
  exact ⟨r, hr, by rw [← heq]; exact hr⟩

theorem evaluate_error (e : McmcEnv d B) (lp : Pt d → F) (hlp : ∀ xs, e.logPrior xs = xs.map lp) (cands : List (Walker d B)) (x : PyErr)
    (h : e.logLike ((cands.filter (validMask lp)).map (·.x)) = .error x) : evaluate e cands = .error x := by
  have e1 : maskSelect (cands.map finiteMask) (cands.map (·.x)) = (cands.filter finiteMask).map (·.x) :=
    maskSelect_filter (γ := Unit) _ _ _
  have e2 : (e.logPrior ((cands.filter finiteMask).map (·.x))) = (cands.filter finiteMask).map fun c => lp c.x := by
    rw [hlp, List.map_map]; rfl
  have e4 : maskSelect (cands.map (validMask lp)) (cands.map (·.x)) = (cands.filter (validMask lp)).map (·.x) :=
    maskSelect_filter (γ := Unit) _ _ _
  have ez : List.zipWith (fun m lp => m && F.isfinite lp) (cands.map finiteMask)
      (cands.map fun c => if finiteMask c then lp c.x else ninf) = cands.map (validMask lp) :=
    zipWith_mask cands finiteMask (fun c => lp c.x)
  unfold evaluate
  simp only [e1, e2, scatter_map]
  simp only [bind, Except.bind]
  rw [ez, e4, h]

/-- A kernel call raises what its first step raises. -/
theorem mcmc_error (e : McmcEnv d B) (hb : ProperBounds e.scaler.low e.scaler.high)
    (hf : e.scaler.scale = true → e.scaler.affine ≠ none) (lp : Pt d → F) (hlp : ∀ xs, e.logPrior xs = xs.map lp) (fuel : ℕ) (rnd : ℕ → ℕ → Draw d)
    (ws : List (Walker d B)) (x : PyErr)
    (h : ∀ cands, (((mcmcInit e ws).walkers.mapIdx fun k w => propose e (mcmcInit e ws).sigma (mcmcInit e ws).mu w (rnd 1 k)).mapM (candidate e fuel)) = .ok cands →
      e.logLike ((cands.filter (validMask lp)).map (·.x)) = .error x) : mcmc e fuel rnd ws = .error x := by
  obtain ⟨cands, hc⟩ := mapM_exists (candidate_ok e hb hf fuel)
    ((mcmcInit e ws).walkers.mapIdx fun k w => propose e (mcmcInit e ws).sigma (mcmcInit e ws).mu w (rnd 1 k))
  have hs : mcmcStep e fuel (rnd 1) 1 (mcmcInit e ws) = .error x := by
    unfold mcmcStep
    rw [hc]
    simp only [bind, Except.bind, evaluate_error e lp hlp cands x (h cands hc)]
  unfold mcmc
  rw [mcmcLoop]
  simp only [zero_add]
  rw [hs]

/-- **C135** is false for texts: if the likelihood returns one text as blob, the sampler's blob arrays are one-dimensional arrays of objects, and with such an array every
kernel call raises AttributeError. -/
theorem C135_text_raises (e : McmcEnv d (List BlobVal)) (hb : ProperBounds e.scaler.low e.scaler.high)
    (hf : e.scaler.scale = true → e.scaler.affine ≠ none) (lp : Pt d → F) (hlp : ∀ xs, e.logPrior xs = xs.map lp) (le : LikeEnv d BlobVal) (f : Pt d → F)
    (s : Pt d → String) (h : Uniformly le f (fun p => [.text (s p)]) 1 .object) (fuel : ℕ) (rnd : ℕ → ℕ → Draw d) (ws : List (Walker d (List BlobVal))) :
    (∀ x, x ≠ [] → ∃ a, logLikeTyped le none x = .ok (x.map f, some a, true) ∧ a.dtype = .object ∧ a.flat) ∧
    mcmc { e with logLike := typedLike le none .object True } fuel rnd ws = .error .attributeError := by
  classical
  refine ⟨fun x hx => ⟨_, (h.array x hx).1, rfl, (h.array x hx).2 rfl⟩, ?_⟩
  exact mcmc_error { e with logLike := typedLike le none .object True } hb hf lp hlp fuel rnd ws _ fun cands _ => by
    change typedLike le none .object True _ = _
    rw [typedLike, if_pos ⟨rfl, trivial⟩]

/-- A likelihood with one text as blob. -/
example : Uniformly (d := 1) { single := fun _ => .ok (.seq false (fin 0) [.text "ok"]), vector := fun _ => .ok [], vectorize := false, pool := none }
    (fun _ => fin 0) (fun _ => [.text "ok"]) 1 .object :=
  ⟨⟨rfl, rfl⟩, one_pos, ⟨false, fun _ => rfl⟩, fun _ => rfl, fun p v hv => by
    simp only [List.mem_cons, List.not_mem_nil, or_false] at hv
    rw [hv]; rfl⟩

/-- **C135** is false for integers: if the likelihood returns integers as blobs and no proposal of the first step is in the support of the prior, the kernel call raises
TypeError. (With floating-point blobs it goes on, C135_uniform_partial.) -/
theorem C135_int_raises (e : McmcEnv d (List BlobVal)) (hb : ProperBounds e.scaler.low e.scaler.high)
    (hf : e.scaler.scale = true → e.scaler.affine ≠ none) (lp : Pt d → F) (hlp : ∀ xs, e.logPrior xs = xs.map lp) (le : LikeEnv d BlobVal) (f : Pt d → F)
    (b : Pt d → List BlobVal) (k : ℕ) (h : Uniformly le f b k .int) (fuel : ℕ) (rnd : ℕ → ℕ → Draw d) (ws : List (Walker d (List BlobVal)))
    (hout : ∀ cands, (((mcmcInit e ws).walkers.mapIdx fun j w => propose e (mcmcInit e ws).sigma (mcmcInit e ws).mu w (rnd 1 j)).mapM (candidate e fuel)) = .ok cands →
      ∀ c ∈ cands, lp c.x = ninf) :
    mcmc { e with logLike := typedLike le none .int (k = 1) } fuel rnd ws = .error .typeError := by
  refine mcmc_error { e with logLike := typedLike le none .int (k = 1) } hb hf lp hlp fuel rnd ws _ fun cands hc => ?_
  have hfil : cands.filter (validMask lp) = [] := by
    rw [List.filter_eq_nil_iff]
    intro c hm
    simp [validMask, hout cands hc c hm, F.isfinite]
  rw [hfil]
  change typedLike le none .int (k = 1) [] = _
  rw [h.typed _ (by simp), if_pos rfl]
  rfl

/-- The stored arrays of one type are put together unchanged. -/
theorem concat_uniform (dt : Dtype) (as : List BlobArr) (hne : as ≠ []) (h : ∀ a ∈ as, a.dtype = dt ∧ ∀ r ∈ a.rows, ∀ v ∈ r, v.dtype = dt) :
    concatBlobs as = .ok ⟨dt, as.flatMap BlobArr.rows⟩ := by
  have h1 : (as.map BlobArr.dtype).foldl Dtype.promote .bool = dt := by
    have key : ∀ (as : List BlobArr), (∀ a ∈ as, a.dtype = dt) → (as.map BlobArr.dtype).foldl Dtype.promote dt = dt := by
      intro as
      induction as with
      | nil => intro _; rfl
      | cons a as ih =>
        intro h
        rw [List.map_cons, List.foldl_cons, h a (by simp), show dt.promote dt = dt by cases dt <;> rfl]
        exact ih fun v hv => h v (by simp [hv])
    cases as with
    | nil => exact absurd rfl hne
    | cons a as =>
      rw [List.map_cons, List.foldl_cons, (h a (by simp)).1, show Dtype.bool.promote dt = dt by cases dt <;> rfl]
      exact key as fun v hv => (h v (by simp [hv])).1
  rw [concatBlobs, h1]
  rw [mapM_id]
  · rfl
  · intro r hr
    obtain ⟨a, ha, hra⟩ := List.mem_flatMap.mp hr
    exact mapM_id _ fun v hv => by rw [← (h a ha).2 r hra v hv]; exact castEntry_own v

/-- A likelihood with the blobs `x[0]` and `x[1]`: the hypothesis of C135_uniform_partial (and, with one blob `7`, that of C135_int_raises). -/
example : Uniformly (d := 2) { single := fun x => .ok (.seq false (fin 0) [.flt (x 0), .flt (x 1)]), vector := fun _ => .ok [], vectorize := false, pool := none }
    (fun _ => fin 0) (fun x => [.flt (x 0), .flt (x 1)]) 2 .float :=
  ⟨⟨rfl, rfl⟩, two_pos, ⟨false, fun _ => rfl⟩, fun _ => rfl, fun p v hv => by
    simp only [List.mem_cons, List.not_mem_nil, or_false] at hv
    rcases hv with rfl | rfl <;> rfl⟩

example : ∃ (le : LikeEnv 2 BlobVal), ∀ (k : Kern) (fuel : ℕ) (rnd : ℕ → ℕ → Draw 2) (ws : List (Walker 2 (List BlobVal))) (e : McmcEnv 2 (List BlobVal)),
    e.scaler = (exampleEnv k (fun _ => fin 0) 1).scaler → (e.logPrior = fun xs => xs.map fun _ => ninf) →
    mcmc { e with logLike := typedLike le none .int (1 = 1) } fuel rnd ws = .error .typeError := by
  refine ⟨{ single := fun _ => .ok (.seq false (fin 0) [.int 7]), vector := fun _ => .ok [], vectorize := false, pool := none }, fun k fuel rnd ws e h1 h2 => ?_⟩
  refine C135_int_raises e (by rw [h1]; exact exampleEnv_bounds k _ 1) (by rw [h1]; simp [exampleEnv]) (fun _ => ninf) (fun xs => by rw [h2]) _ (fun _ => fin 0)
    (fun _ => [.int 7]) 1 ⟨⟨rfl, rfl⟩, one_pos, ⟨false, fun _ => rfl⟩, fun _ => rfl, fun p v hv => ?_⟩ fuel rnd ws fun _ _ _ _ => rfl
  simp only [List.mem_cons, List.not_mem_nil, or_false] at hv
  rw [hv]
  rfl

end Poco
