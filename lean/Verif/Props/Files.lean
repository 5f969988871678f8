import Verif.Spec.Files

/-! State files: atomic saving, concurrent samplers, names, save/load round trip (C53, C54, C57, C84, C85). -/

namespace Poco
open Files Spec

/-! ### C53, C84, C85: saving -/

section saving
variable {ι : Type} [DecidableEq ι] {fs₀ : FS} {jobs : ι → List Job}

/-- What holds of the file system at every moment. -/
structure FsInv (fs₀ : FS) (jobs : ι → List Job) (fs : FS) : Prop where
  none_ok : ∀ q ∉ tempNames jobs, none ∈ fs.maybe q → OldOrComplete fs₀ jobs q none
  some_ok : ∀ q ∉ tempNames jobs, ∀ i, some i ∈ fs.maybe q → fs.disk i = some (fs.data i) ∧
    OldOrComplete fs₀ jobs q (some (fs.data i)) ∧ i < fs.next ∧ ∀ t ∈ tempNames jobs, fs.dir t ≠ some i
  seen : ∀ q ∉ tempNames jobs, fs.dir q ∈ fs.maybe q
  temp_lt : ∀ t ∈ tempNames jobs, ∀ i, fs.dir t = some i → i < fs.next
  temp_inj : ∀ t ∈ tempNames jobs, ∀ t' ∈ tempNames jobs, ∀ i, fs.dir t = some i → fs.dir t' = some i → t = t'

/-- Where a process is in `save_state`. -/
inductive Phase (fs : FS) (j : Job) (alone : Prop) : List Op → Option ℕ → List UInt8 → Prop
  | mkdir : Phase fs j alone [.mkdir, .openTemp, .dump, .flush, .fsync, .close, .rename] none []
  | openTemp : Phase fs j alone [.openTemp, .dump, .flush, .fsync, .close, .rename] none []
  | dump {i : ℕ} {b : List UInt8} (hd : fs.dir (tempPath j.path) = some i) (h : fs.data i ++ b = []) :
      Phase fs j alone [.dump, .flush, .fsync, .close, .rename] (some i) b
  | flush {i : ℕ} {b : List UInt8} (hd : fs.dir (tempPath j.path) = some i) (h : fs.data i ++ b = j.content) :
      Phase fs j alone [.flush, .fsync, .close, .rename] (some i) b
  | fsync {i : ℕ} (hd : fs.dir (tempPath j.path) = some i) (h : fs.data i = j.content) :
      Phase fs j alone [.fsync, .close, .rename] (some i) []
  | close {i : ℕ} (hd : fs.dir (tempPath j.path) = some i) (h : fs.data i = j.content) (hs : fs.disk i = some j.content) :
      Phase fs j alone [.close, .rename] (some i) []
  | rename {i : ℕ} (hd : fs.dir (tempPath j.path) = some i) (h : fs.data i = j.content) (hs : fs.disk i = some j.content) :
      Phase fs j alone [.rename] none []
  | done (h : alone → fs.read j.path = some j.content) : Phase fs j alone [] none []

/-- What holds of a process. -/
structure ProcInv (jobs : ι → List Job) (fs : FS) (a : ι) (p : Proc) : Prop where
  todo : ∀ j ∈ p.todo, j ∈ jobs a
  idle : p.cur = none → p.handle = none ∧ p.buf = []
  busy : ∀ j os, p.cur = some (j, os) → j ∈ jobs a ∧
    Phase fs j (∀ b ≠ a, ∀ k ∈ jobs b, k.path ≠ j.path) os p.handle p.buf

/-- What a step by a process working on `j` leaves alone. -/
structure Frame (j : Job) (fs fs' : FS) : Prop where
  dir : ∀ q, q ≠ tempPath j.path → q ≠ j.path → fs'.dir q = fs.dir q
  data : ∀ k < fs.next, fs.dir (tempPath j.path) ≠ some k → fs'.data k = fs.data k ∧ fs'.disk k = fs.disk k

theorem Frame.rfl' {j : Job} {fs : FS} : Frame j fs fs := ⟨fun _ _ _ => rfl, fun _ _ _ => ⟨rfl, rfl⟩⟩

theorem openWrite_frame {j : Job} {fs : FS} : Frame j fs (fs.openWrite (tempPath j.path)).1 := by
  unfold FS.openWrite
  cases h : fs.dir (tempPath j.path) with
  | none =>
    refine ⟨fun q h1 _ => Function.update_of_ne h1 _ _, fun k hk _ => ?_⟩
    exact ⟨Function.update_of_ne hk.ne _ _, Function.update_of_ne hk.ne _ _⟩
  | some i =>
    refine ⟨fun q _ _ => rfl, fun k hk hn => ?_⟩
    have : k ≠ i := fun e => hn (by rw [h, e])
    exact ⟨Function.update_of_ne this _ _, Function.update_of_ne this _ _⟩

theorem write_frame {j : Job} {fs : FS} {i : ℕ} {bs : List UInt8} (hi : fs.dir (tempPath j.path) = some i) :
    Frame j fs (fs.write i bs) := by
  unfold FS.write
  split_ifs with h
  · exact Frame.rfl'
  · refine ⟨fun q _ _ => rfl, fun k hk hn => ?_⟩
    have : k ≠ i := fun e => hn (by rw [hi, e])
    exact ⟨Function.update_of_ne this _ _, Function.update_of_ne this _ _⟩

theorem fsync_frame {j : Job} {fs : FS} {i : ℕ} (hi : fs.dir (tempPath j.path) = some i) : Frame j fs (fs.fsync i) := by
  refine ⟨fun q _ _ => rfl, fun k hk hn => ?_⟩
  have : k ≠ i := fun e => hn (by rw [hi, e])
  exact ⟨rfl, Function.update_of_ne this _ _⟩

theorem rename_frame {j : Job} {fs fs' : FS} (h : fs.rename (tempPath j.path) j.path = some fs') : Frame j fs fs' := by
  unfold FS.rename at h
  cases hd : fs.dir (tempPath j.path) with
  | none => rw [hd] at h; cases h
  | some i =>
    rw [hd] at h
    simp only at h
    split_ifs at h with hp
    · simp only [Option.some.injEq] at h; subst h; exact Frame.rfl'
    · simp only [Option.some.injEq] at h
      subst h
      refine ⟨fun q h1 h2 => ?_, fun k _ _ => ⟨rfl, rfl⟩⟩
      simp only
      rw [Function.update_of_ne h2, Function.update_of_ne h1]

theorem write_dir (fs : FS) (i : ℕ) (bs : List UInt8) : (fs.write i bs).dir = fs.dir := by
  unfold FS.write; split_ifs <;> rfl

theorem write_maybe (fs : FS) (i : ℕ) (bs : List UInt8) : (fs.write i bs).maybe = fs.maybe := by
  unfold FS.write; split_ifs <;> rfl

theorem write_next (fs : FS) (i : ℕ) (bs : List UInt8) : (fs.write i bs).next = fs.next := by
  unfold FS.write; split_ifs <;> rfl

theorem write_data (fs : FS) (i : ℕ) (bs : List UInt8) : (fs.write i bs).data i = fs.data i ++ bs := by
  unfold FS.write
  split_ifs with h
  · rw [h, List.append_nil]
  · exact Function.update_self _ _ _

/-- Changing one temporary file keeps the invariant. -/
theorem FsInv.touch {fs fs' : FS} (h : FsInv fs₀ jobs fs) {t : FilePath} (ht : t ∈ tempNames jobs) {i : ℕ}
    (hi : fs.dir t = some i) (h1 : fs'.dir = fs.dir) (h2 : fs'.maybe = fs.maybe) (h3 : fs'.next = fs.next)
    (h4 : ∀ k ≠ i, fs'.data k = fs.data k ∧ fs'.disk k = fs.disk k) : FsInv fs₀ jobs fs' where
  none_ok := by rw [h2]; exact h.none_ok
  some_ok q hq k hk := by
    rw [h2] at hk
    obtain ⟨a1, a2, a3, a4⟩ := h.some_ok q hq k hk
    obtain ⟨b1, b2⟩ := h4 k (fun e => a4 t ht (by rw [hi, e]))
    rw [b1, b2, h3, h1]
    exact ⟨a1, a2, a3, a4⟩
  seen := by rw [h1, h2]; exact h.seen
  temp_lt := by rw [h1, h3]; exact h.temp_lt
  temp_inj := by rw [h1]; exact h.temp_inj

theorem FsInv.write {fs : FS} (h : FsInv fs₀ jobs fs) {t : FilePath} (ht : t ∈ tempNames jobs) {i : ℕ}
    (hi : fs.dir t = some i) (bs : List UInt8) : FsInv fs₀ jobs (fs.write i bs) := by
  refine h.touch ht hi (write_dir ..) (write_maybe ..) (write_next ..) fun k hk => ?_
  unfold FS.write
  split_ifs
  · exact ⟨rfl, rfl⟩
  · exact ⟨Function.update_of_ne hk _ _, Function.update_of_ne hk _ _⟩

theorem FsInv.fsync {fs : FS} (h : FsInv fs₀ jobs fs) {t : FilePath} (ht : t ∈ tempNames jobs) {i : ℕ}
    (hi : fs.dir t = some i) : FsInv fs₀ jobs (fs.fsync i) :=
  h.touch ht hi rfl rfl rfl fun _ hk => ⟨rfl, Function.update_of_ne hk _ _⟩

theorem FsInv.openWrite {fs : FS} (h : FsInv fs₀ jobs fs) {t : FilePath} (ht : t ∈ tempNames jobs) :
    FsInv fs₀ jobs (fs.openWrite t).1 := by
  unfold FS.openWrite
  cases hd : fs.dir t with
  | some i =>
    exact h.touch ht hd rfl rfl rfl fun k hk => ⟨Function.update_of_ne hk _ _, Function.update_of_ne hk _ _⟩
  | none =>
    have ne : ∀ q ∉ tempNames jobs, q ≠ t := fun q hq e => hq (e ▸ ht)
    refine ⟨fun q hq => ?_, fun q hq i hi => ?_, fun q hq => ?_, fun t' ht' i => ?_, fun t₁ h₁ t₂ h₂ i => ?_⟩
    · simp only
      rw [Function.update_of_ne (ne q hq)]
      exact h.none_ok q hq
    · simp only at hi ⊢
      rw [Function.update_of_ne (ne q hq)] at hi
      obtain ⟨a1, a2, a3, a4⟩ := h.some_ok q hq i hi
      rw [Function.update_of_ne a3.ne, Function.update_of_ne a3.ne]
      refine ⟨a1, a2, Nat.lt_succ_of_lt a3, fun t' ht' => ?_⟩
      by_cases e : t' = t
      · subst e; rw [Function.update_self]; intro e; cases e; exact lt_irrefl _ a3
      · rw [Function.update_of_ne e]; exact a4 t' ht'
    · simp only
      rw [Function.update_of_ne (ne q hq), Function.update_of_ne (ne q hq)]
      exact h.seen q hq
    · simp only
      by_cases e : t' = t
      · subst e; rw [Function.update_self]; intro e; cases e; exact Nat.lt_succ_self _
      · rw [Function.update_of_ne e]; exact fun g => Nat.lt_succ_of_lt (h.temp_lt t' ht' i g)
    · simp only
      by_cases e₁ : t₁ = t <;> by_cases e₂ : t₂ = t
      · intro _ _; rw [e₁, e₂]
      · subst e₁; rw [Function.update_self, Function.update_of_ne e₂]
        intro e g; cases e; exact absurd (h.temp_lt t₂ h₂ _ g) (lt_irrefl _)
      · subst e₂; rw [Function.update_self, Function.update_of_ne e₁]
        intro g e; cases e; exact absurd (h.temp_lt t₁ h₁ _ g) (lt_irrefl _)
      · rw [Function.update_of_ne e₁, Function.update_of_ne e₂]
        exact h.temp_inj t₁ h₁ t₂ h₂ i

theorem FsInv.rename {fs fs' : FS} (h : FsInv fs₀ jobs fs) {t q : FilePath} (ht : t ∈ tempNames jobs)
    (hq : q ∉ tempNames jobs) {i : ℕ} (hi : fs.dir t = some i) (hs : fs.disk i = some (fs.data i))
    (hc : OldOrComplete fs₀ jobs q (some (fs.data i))) (hr : fs.rename t q = some fs') :
    FsInv fs₀ jobs fs' ∧ fs'.read q = some (fs.data i) := by
  have htq : t ≠ q := fun e => hq (e ▸ ht)
  simp only [FS.rename, hi, htq, if_false, Option.some.injEq] at hr
  subst hr
  have ne : ∀ p ∉ tempNames jobs, p ≠ t := fun p hp e => hp (e ▸ ht)
  have ne' : ∀ p ∈ tempNames jobs, p ≠ q := fun p hp e => hq (e ▸ hp)
  refine ⟨⟨fun p hp => ?_, fun p hp k hk => ?_, fun p hp => ?_, fun t' ht' k => ?_, fun t₁ h₁ t₂ h₂ k => ?_⟩, ?_⟩
  · simp only
    by_cases e : p = q
    · subst e
      rw [Function.update_self]
      intro hn
      rcases hn with hn | hn
      · cases hn
      · exact h.none_ok p hp hn
    · rw [Function.update_of_ne e, Function.update_of_ne (ne p hp)]
      exact h.none_ok p hp
  · simp only at hk ⊢
    have key : ∀ k, (∀ t' ∈ tempNames jobs, fs.dir t' ≠ some k) →
        ∀ t' ∈ tempNames jobs, Function.update (Function.update fs.dir t none) q (some i) t' ≠ some k := by
      intro k hk t' ht'
      rw [Function.update_of_ne (ne' t' ht')]
      by_cases e : t' = t
      · subst e; rw [Function.update_self]; exact fun e => by cases e
      · rw [Function.update_of_ne e]; exact hk t' ht'
    have old : some k ∈ fs.maybe p → fs.disk k = some (fs.data k) ∧
        OldOrComplete fs₀ jobs p (some (fs.data k)) ∧ k < fs.next ∧
        ∀ t' ∈ tempNames jobs, Function.update (Function.update fs.dir t none) q (some i) t' ≠ some k := by
      intro hk
      obtain ⟨a1, a2, a3, a4⟩ := h.some_ok p hp k hk
      exact ⟨a1, a2, a3, key k a4⟩
    by_cases e : p = q
    · subst e
      rw [Function.update_self] at hk
      rcases hk with hk | hk
      · cases hk
        refine ⟨hs, hc, h.temp_lt t ht i hi, fun t' ht' => ?_⟩
        rw [Function.update_of_ne (ne' t' ht')]
        by_cases e : t' = t
        · subst e; rw [Function.update_self]; exact fun e => by cases e
        · rw [Function.update_of_ne e]; exact fun g => e (h.temp_inj t' ht' t ht i g hi)
      · exact old hk
    · rw [Function.update_of_ne e, Function.update_of_ne (ne p hp)] at hk
      exact old hk
  · simp only
    by_cases e : p = q
    · subst e; rw [Function.update_self, Function.update_self]; exact Set.mem_insert _ _
    · rw [Function.update_of_ne e, Function.update_of_ne e, Function.update_of_ne (ne p hp), Function.update_of_ne (ne p hp)]
      exact h.seen p hp
  · simp only
    rw [Function.update_of_ne (ne' t' ht')]
    by_cases e : t' = t
    · subst e; rw [Function.update_self]; exact fun e => by cases e
    · rw [Function.update_of_ne e]; exact h.temp_lt t' ht' k
  · simp only
    rw [Function.update_of_ne (ne' t₁ h₁), Function.update_of_ne (ne' t₂ h₂)]
    by_cases e₁ : t₁ = t
    · subst e₁; rw [Function.update_self]; intro e; cases e
    · by_cases e₂ : t₂ = t
      · subst e₂; rw [Function.update_self]; intro _ e; cases e
      · rw [Function.update_of_ne e₁, Function.update_of_ne e₂]; exact h.temp_inj t₁ h₁ t₂ h₂ k
  · simp only [FS.read, Function.update_self, Option.map_some]

/-- The steps of a process keep its own invariant and that of the file system, and leave alone what is not its own. -/
theorem step_own (hp : ∀ a, ∀ j ∈ jobs a, j.path ∉ tempNames jobs) {fs fs' : FS} {a : ι} {p p' : Proc}
    (hf : FsInv fs₀ jobs fs) (hi : ProcInv jobs fs a p) (hs : ProcStep fs p fs' p') :
    FsInv fs₀ jobs fs' ∧ ProcInv jobs fs' a p' ∧ (fs' = fs ∨ ∃ j ∈ jobs a, Frame j fs fs') := by
  have hT : ∀ j ∈ jobs a, tempPath j.path ∈ tempNames jobs := fun j hj => ⟨a, j, hj, rfl⟩
  cases hs with
  | start =>
    rename_i j js h b
    obtain ⟨rfl, rfl⟩ : h = none ∧ b = [] := hi.idle rfl
    have hj := hi.todo j (by simp)
    refine ⟨hf, ⟨fun k hk => hi.todo k (by simp [hk]), (fun h => by cases h), ?_⟩, Or.inl rfl⟩
    intro j' os e
    simp only [Option.some.injEq, Prod.mk.injEq] at e
    obtain ⟨rfl, rfl⟩ := e
    exact ⟨hj, .mkdir⟩
  | op he =>
    rename_i js j o os h h' b b'
    obtain ⟨hj, hph⟩ := hi.busy j (o :: os) rfl
    have wrap : ∀ {fs' : FS} {h' : Option ℕ} {b' : List UInt8}, Phase fs' j (∀ b ≠ a, ∀ k ∈ jobs b, k.path ≠ j.path) os h' b' →
        ProcInv jobs fs' a ⟨js, some (j, os), h', b'⟩ := by
      intro fs' h' b' hph'
      refine ⟨hi.todo, (fun h => by cases h), ?_⟩
      intro j' os' e
      simp only [Option.some.injEq, Prod.mk.injEq] at e
      obtain ⟨rfl, rfl⟩ := e
      exact ⟨hj, hph'⟩
    cases hph with
    | mkdir =>
      simp only [exec, Option.some.injEq, Prod.mk.injEq] at he
      obtain ⟨rfl, rfl, rfl⟩ := he
      exact ⟨hf, wrap .openTemp, Or.inl rfl⟩
    | openTemp =>
      simp only [exec, Option.some.injEq, Prod.mk.injEq] at he
      obtain ⟨rfl, rfl, rfl⟩ := he
      refine ⟨hf.openWrite (hT j hj), wrap ?_, Or.inr ⟨j, hj, openWrite_frame⟩⟩
      refine .dump ?_ ?_
      · unfold FS.openWrite
        cases hd : fs.dir (tempPath j.path) with
        | none => exact Function.update_self _ _ _
        | some i => exact hd
      · unfold FS.openWrite
        cases hd : fs.dir (tempPath j.path) <;> simp
    | dump hd hc =>
      simp only [exec, Option.some.injEq, Prod.mk.injEq] at he
      obtain ⟨rfl, rfl, rfl⟩ := he
      refine ⟨hf, wrap (.flush hd ?_), Or.inl rfl⟩
      rw [← List.append_assoc, hc, List.nil_append]
    | flush hd hc =>
      simp only [exec, Option.map_some, Option.some.injEq, Prod.mk.injEq] at he
      obtain ⟨rfl, rfl, rfl⟩ := he
      refine ⟨hf.write (hT j hj) hd _, wrap (.fsync ?_ ?_), Or.inr ⟨j, hj, write_frame hd⟩⟩
      · rw [write_dir]; exact hd
      · rw [write_data]; exact hc
    | fsync hd hc =>
      simp only [exec, Option.map_some, Option.some.injEq, Prod.mk.injEq] at he
      obtain ⟨rfl, rfl, rfl⟩ := he
      refine ⟨hf.fsync (hT j hj) hd, wrap (.close hd hc ?_), Or.inr ⟨j, hj, fsync_frame hd⟩⟩
      simp only [FS.fsync, Function.update_self, hc]
    | close hd hc hs =>
      simp only [exec, Option.map_some, Option.some.injEq, Prod.mk.injEq] at he
      obtain ⟨rfl, rfl, rfl⟩ := he
      exact ⟨hf, wrap (.rename hd hc hs), Or.inl rfl⟩
    | rename hd hc hs =>
      simp only [exec, Option.map_eq_some_iff, Prod.mk.injEq] at he
      obtain ⟨fs1, hr, rfl, rfl, rfl⟩ := he
      obtain ⟨k1, k2⟩ := hf.rename (hT j hj) (hp a j hj) hd (by rw [hs, hc]) (Or.inr ⟨a, j, hj, rfl, by rw [hc]⟩) hr
      refine ⟨k1, wrap (.done fun _ => ?_), Or.inr ⟨j, hj, rename_frame hr⟩⟩
      rw [k2, hc]
  | leak n =>
    rename_i js c i b
    cases c with
    | none => exact absurd (hi.idle rfl).1 (by simp)
    | some c =>
      obtain ⟨j, os⟩ := c
      obtain ⟨hj, hph⟩ := hi.busy j os rfl
      have wrap : ∀ {fs' : FS} {h' : Option ℕ} {b' : List UInt8}, Phase fs' j (∀ b ≠ a, ∀ k ∈ jobs b, k.path ≠ j.path) os h' b' →
          ProcInv jobs fs' a ⟨js, some (j, os), h', b'⟩ := by
        intro fs' h' b' hph'
        refine ⟨hi.todo, (fun h => by cases h), ?_⟩
        intro j' os' e
        simp only [Option.some.injEq, Prod.mk.injEq] at e
        obtain ⟨rfl, rfl⟩ := e
        exact ⟨hj, hph'⟩
      have hw : (fs.write i (b.take n)).data i ++ b.drop n = fs.data i ++ b := by
        rw [write_data, List.append_assoc, List.take_append_drop]
      have hempty : fs.write i [] = fs := by simp [FS.write]
      cases hph with
      | dump hd hc =>
        exact ⟨hf.write (hT j hj) hd _, wrap (.dump (by rw [write_dir]; exact hd) (by rw [hw]; exact hc)),
          Or.inr ⟨j, hj, write_frame hd⟩⟩
      | flush hd hc =>
        exact ⟨hf.write (hT j hj) hd _, wrap (.flush (by rw [write_dir]; exact hd) (by rw [hw]; exact hc)),
          Or.inr ⟨j, hj, write_frame hd⟩⟩
      | fsync hd hc =>
        rw [List.take_nil, List.drop_nil, hempty]
        exact ⟨hf, wrap (.fsync hd hc), Or.inl rfl⟩
      | close hd hc hs =>
        rw [List.take_nil, List.drop_nil, hempty]
        exact ⟨hf, wrap (.close hd hc hs), Or.inl rfl⟩
  | abort n m =>
    rename_i js j os h b
    obtain ⟨hj, hph⟩ := hi.busy j os rfl
    have wrap : ∀ {fs' : FS}, ProcInv jobs fs' a ⟨js, none, none, []⟩ :=
      fun {fs'} => ⟨hi.todo, fun _ => ⟨rfl, rfl⟩, fun j os e => by cases e⟩
    cases h with
    | none => exact ⟨hf, wrap, Or.inl rfl⟩
    | some i =>
      have hd : fs.dir (tempPath j.path) = some i := by cases hph <;> assumption
      exact ⟨hf.write (hT j hj) hd _, wrap, Or.inr ⟨j, hj, write_frame hd⟩⟩
  | finish =>
    rename_i js j h b
    obtain ⟨hj, hph⟩ := hi.busy j [] rfl
    refine ⟨hf, ⟨hi.todo, fun _ => ?_, fun j os e => by cases e⟩, Or.inl rfl⟩
    cases hph
    exact ⟨rfl, rfl⟩

/-- A step of another process keeps a process's invariant. -/
theorem step_other (hp : ∀ a, ∀ j ∈ jobs a, j.path ∉ tempNames jobs)
    (hd : ∀ a b, a ≠ b → ∀ j ∈ jobs a, ∀ k ∈ jobs b, tempPath j.path ≠ tempPath k.path) {fs fs' : FS} {a b : ι} (hab : b ≠ a)
    {p : Proc} (hf : FsInv fs₀ jobs fs) (hi : ProcInv jobs fs b p) {k : Job} (hk : k ∈ jobs a) (hfr : Frame k fs fs') :
    ProcInv jobs fs' b p := by
  refine ⟨hi.todo, hi.idle, fun j os e => ?_⟩
  obtain ⟨hj, hph⟩ := hi.busy j os e
  refine ⟨hj, ?_⟩
  have hTj : tempPath j.path ∈ tempNames jobs := ⟨b, j, hj, rfl⟩
  have hTk : tempPath k.path ∈ tempNames jobs := ⟨a, k, hk, rfl⟩
  have hdir : fs'.dir (tempPath j.path) = fs.dir (tempPath j.path) :=
    hfr.dir _ (hd b a hab j hj k hk) (fun e => hp a k hk (e ▸ hTj))
  have hdat : ∀ i, fs.dir (tempPath j.path) = some i → fs'.data i = fs.data i ∧ fs'.disk i = fs.disk i := fun i hi =>
    hfr.data i (hf.temp_lt _ hTj i hi) fun e => hd b a hab j hj k hk (hf.temp_inj _ hTj _ hTk i hi e)
  revert hph
  generalize p.handle = h
  generalize p.buf = bf
  intro hph
  cases hph with
  | mkdir => exact .mkdir
  | openTemp => exact .openTemp
  | dump e1 e2 => exact .dump (hdir.trans e1) (by rw [(hdat _ e1).1]; exact e2)
  | flush e1 e2 => exact .flush (hdir.trans e1) (by rw [(hdat _ e1).1]; exact e2)
  | fsync e1 e2 => exact .fsync (hdir.trans e1) (by rw [(hdat _ e1).1]; exact e2)
  | close e1 e2 e3 => exact .close (hdir.trans e1) (by rw [(hdat _ e1).1]; exact e2) (by rw [(hdat _ e1).2]; exact e3)
  | rename e1 e2 e3 => exact .rename (hdir.trans e1) (by rw [(hdat _ e1).1]; exact e2) (by rw [(hdat _ e1).2]; exact e3)
  | done e1 =>
    refine .done fun hal => ?_
    have e2 := e1 hal
    have hjT := hp b j hj
    unfold FS.read at e2 ⊢
    rw [hfr.dir j.path (fun e => hjT (e ▸ hTk)) (fun e => hal a hab.symm k hk e.symm)]
    rw [Option.map_eq_some_iff] at e2 ⊢
    obtain ⟨i, h1, h2⟩ := e2
    have hm := hf.seen j.path hjT
    rw [h1] at hm
    obtain ⟨-, -, a3, a4⟩ := hf.some_ok j.path hjT i hm
    exact ⟨i, h1, by rw [(hfr.data i a3 (a4 _ hTk)).1]; exact h2⟩

theorem reachable_inv (h₀ : AtRest (tempNames jobs) fs₀) (hp : ∀ a, ∀ j ∈ jobs a, j.path ∉ tempNames jobs)
    (hd : ∀ a b, a ≠ b → ∀ j ∈ jobs a, ∀ k ∈ jobs b, tempPath j.path ≠ tempPath k.path) {fs : FS} {ps : ι → Proc}
    (hr : Reachable fs₀ jobs fs ps) : FsInv fs₀ jobs fs ∧ ∀ a, ProcInv jobs fs a (ps a) := by
  induction hr with
  | init =>
    refine ⟨⟨fun q hq hn => ?_, fun q hq i hi => ?_, fun q hq => ?_, fun t _ i hi => h₀.numbered t i hi,
      fun t _ t' _ i h1 h2 => h₀.nolinks t t' i h1 h2⟩, fun a => ⟨fun _ h => h, fun _ => ⟨rfl, rfl⟩, fun j os e => by cases e⟩⟩
    · rw [h₀.entries q hq, Set.mem_singleton_iff] at hn
      exact Or.inl (by rw [FS.read, ← hn]; rfl)
    · rw [h₀.entries q hq, Set.mem_singleton_iff] at hi
      refine ⟨h₀.contents q hq i hi.symm, Or.inl (by rw [FS.read, ← hi]; rfl), h₀.numbered q i hi.symm, fun t ht e => ?_⟩
      exact hq ((h₀.nolinks t q i e hi.symm) ▸ ht)
    · rw [h₀.entries q hq]; rfl
  | step a _ hs ih =>
    obtain ⟨ih1, ih2⟩ := ih
    obtain ⟨k1, k2, k3⟩ := step_own hp ih1 (ih2 a) hs
    refine ⟨k1, fun b => ?_⟩
    by_cases hab : b = a
    · subst hab; rw [Function.update_self]; exact k2
    · rw [Function.update_of_ne hab]
      rcases k3 with rfl | ⟨k, hk, hfr⟩
      · exact ih2 b
      · exact step_other hp hd hab ih1 (ih2 b) hk hfr

/-- **C85**: several processes save states to one file system, in any interleaving; any of them may die, raise, or lose
power at any moment.  If no state file has the name of a temporary file and different processes use different temporary
names, then at every moment every file that is not temporary holds what it held at the start, or all of what one call of
`save_state` for it wrote — for running processes and after a loss of power.  And when `save_state` has written a file no
other process writes, the file is there. -/
theorem C85_concurrent_saves (fs₀ : FS) (jobs : ι → List Job) (h₀ : AtRest (tempNames jobs) fs₀)
    (hp : ∀ a, ∀ j ∈ jobs a, j.path ∉ tempNames jobs)
    (hd : ∀ a b, a ≠ b → ∀ j ∈ jobs a, ∀ k ∈ jobs b, tempPath j.path ≠ tempPath k.path) (fs : FS) (ps : ι → Proc)
    (hr : Reachable fs₀ jobs fs ps) :
    (∀ q ∉ tempNames jobs, OldOrComplete fs₀ jobs q (fs.read q) ∧
      ∀ r, fs.AfterPowerLoss q r → OldOrComplete fs₀ jobs q r) ∧
    ∀ a j, (ps a).cur = some (j, []) → (∀ b ≠ a, ∀ k ∈ jobs b, k.path ≠ j.path) → fs.read j.path = some j.content := by
  obtain ⟨h1, h2⟩ := reachable_inv h₀ hp hd hr
  refine ⟨fun q hq => ⟨?_, ?_⟩, fun a j hc hal => ?_⟩
  · have hs := h1.seen q hq
    unfold FS.read
    cases e : fs.dir q with
    | none => rw [e] at hs; exact h1.none_ok q hq hs
    | some i => rw [e] at hs; exact (h1.some_ok q hq i hs).2.1
  · rintro r ⟨v, hv, hr⟩
    cases v with
    | none => simp only at hr; rw [hr]; exact h1.none_ok q hq hv
    | some i =>
      obtain ⟨b, rfl, hb⟩ := hr
      obtain ⟨a1, a2, -⟩ := h1.some_ok q hq i hv
      rw [hb _ a1]; exact a2
  · obtain ⟨-, hph⟩ := (h2 a).busy j [] hc
    revert hph
    generalize (ps a).handle = h
    generalize (ps a).buf = bf
    intro hph
    cases hph with
    | done h => exact h hal

end saving

/-- **C53**, partial: at every moment of a call of `save_state(path)` — including moments at which it is interrupted, raises or
loses power — the file holds exactly what it held before or all of the new state, and no other file is touched except the
temporary one; once the last operation is done, the file holds the new state.  Missing: paths whose own suffix is `.temp`
(`C53_temp_suffix_false`); by `C53_temp_iff` these are the only ones excluded. -/
theorem C53_atomic_partial (fs₀ : FS) (j : Job) (h₀ : AtRest {tempPath j.path} fs₀) (hp : tempPath j.path ≠ j.path) (fs : FS)
    (ps : Unit → Proc) (hr : Reachable fs₀ (fun _ => [j]) fs ps) :
    ((fs.read j.path = fs₀.read j.path ∨ fs.read j.path = some j.content) ∧
      ∀ r, fs.AfterPowerLoss j.path r → r = fs₀.read j.path ∨ r = some j.content) ∧
    (∀ q, q ≠ j.path → q ≠ tempPath j.path → fs.read q = fs₀.read q ∧ ∀ r, fs.AfterPowerLoss q r → r = fs₀.read q) ∧
    ((ps ()).cur = some (j, []) → fs.read j.path = some j.content) := by
  have hT : tempNames (fun _ : Unit => [j]) = {tempPath j.path} := by
    ext t
    simp only [tempNames, Set.mem_setOf_eq, List.mem_singleton, exists_eq_left, Set.mem_singleton_iff]
    exact ⟨fun ⟨_, h⟩ => h.symm, fun h => ⟨(), h.symm⟩⟩
  obtain ⟨k1, k2⟩ := C85_concurrent_saves fs₀ (fun _ : Unit => [j]) (hT ▸ h₀)
    (fun a k hk => by rw [hT]; rw [List.mem_singleton.mp hk]; exact hp.symm) (fun a b hab => absurd rfl hab) fs ps hr
  have hA : ∀ q r, OldOrComplete fs₀ (fun _ : Unit => [j]) q r ↔ (r = fs₀.read q ∨ (j.path = q ∧ r = some j.content)) := by
    intro q r
    simp only [OldOrComplete, List.mem_singleton, exists_eq_left, exists_const]
  refine ⟨?_, fun q h1 h2 => ?_, fun hc => k2 () j hc fun b hb => absurd rfl hb⟩
  · obtain ⟨a1, a2⟩ := k1 j.path (by rw [hT]; exact hp.symm)
    refine ⟨((hA _ _).mp a1).imp_right And.right, fun r hr => ((hA _ _).mp (a2 r hr)).imp_right And.right⟩
  · obtain ⟨a1, a2⟩ := k1 q (by rw [hT]; exact h2)
    have no : ∀ r, OldOrComplete fs₀ (fun _ : Unit => [j]) q r → r = fs₀.read q := by
      intro r hr
      rcases (hA _ _).mp hr with h | ⟨h, -⟩
      · exact h
      · exact absurd h.symm h1
    exact ⟨no _ a1, fun r hr => no r (a2 r hr)⟩

/-- The operations of one call of `save_state`, done one after the other without interruption. -/
theorem reachable_ops {fs₀ fs fs' : FS} {j : Job} {o : Op} {os : List Op} {h h' : Option ℕ} {b b' : List UInt8}
    (hr : Reachable fs₀ (fun _ : Unit => [j]) fs (fun _ => ⟨[], some (j, o :: os), h, b⟩))
    (he : exec j fs h b o = some (fs', h', b')) :
    Reachable fs₀ (fun _ : Unit => [j]) fs' (fun _ => ⟨[], some (j, os), h', b'⟩) := by
  have := hr.step () (ProcStep.op he)
  rwa [show Function.update (fun _ : Unit => (⟨[], some (j, o :: os), h, b⟩ : Proc)) () ⟨[], some (j, os), h', b'⟩
    = fun _ => ⟨[], some (j, os), h', b'⟩ from funext fun _ => by simp] at this

theorem reachable_start (fs₀ : FS) (j : Job) :
    Reachable fs₀ (fun _ : Unit => [j]) fs₀ (fun _ => ⟨[], some (j, saveProg), none, []⟩) := by
  have := (Reachable.init (fs₀ := fs₀) (jobs := fun _ : Unit => [j])).step () ProcStep.start
  rwa [show Function.update (fun a : Unit => (⟨(fun _ : Unit => [j]) a, none, none, []⟩ : Proc)) () ⟨[], some (j, saveProg), none, []⟩
    = fun _ => ⟨[], some (j, saveProg), none, []⟩ from funext fun _ => by simp] at this

/-- **C53** is false for paths with suffix `.temp`: the temporary file is then the file itself, and as soon as it has been
opened the previous state is gone although nothing of the new one is there. -/
theorem C53_temp_suffix_false (fs₀ : FS) (j : Job) (hp : tempPath j.path = j.path) (old : List UInt8)
    (hold : fs₀.read j.path = some old) (h1 : old ≠ []) (h2 : j.content ≠ []) :
    ∃ fs ps, Reachable fs₀ (fun _ : Unit => [j]) fs ps ∧ fs.read j.path ≠ fs₀.read j.path ∧ fs.read j.path ≠ some j.content := by
  have r1 := reachable_ops (reachable_start fs₀ j) (fs' := fs₀) (h' := none) (b' := []) rfl
  have r2 := reachable_ops r1 (fs' := _) (h' := _) (b' := _) rfl
  refine ⟨_, _, r2, ?_⟩
  have : (fs₀.openWrite (tempPath j.path)).1.read j.path = some [] := by
    unfold FS.read at hold ⊢
    rw [Option.map_eq_some_iff] at hold
    obtain ⟨i, hi, -⟩ := hold
    rw [hp]
    simp [FS.openWrite, hi]
  rw [this, hold]
  exact ⟨by simpa using h1.symm, by simpa using h2.symm⟩

/-- Nothing is ever removed from what the disk may show. -/
theorem maybe_mono {ι : Type} [DecidableEq ι] {fs₀ : FS} {jobs : ι → List Job} {fs : FS} {ps : ι → Proc}
    (hr : Reachable fs₀ jobs fs ps) (q : FilePath) : fs₀.maybe q ⊆ fs.maybe q := by
  have upd : ∀ (m : FilePath → Set (Option ℕ)) (p : FilePath) (v : Option ℕ), m q ⊆ Function.update m p (insert v (m p)) q := by
    intro m p v
    by_cases e : q = p
    · subst e; rw [Function.update_self]; exact Set.subset_insert _ _
    · rw [Function.update_of_ne e]
  induction hr with
  | init => exact subset_rfl
  | @step fs fs' ps a p' _ hs ih =>
    refine ih.trans ?_
    generalize ps a = p at hs
    cases hs with
    | start => exact subset_rfl
    | finish => exact subset_rfl
    | leak n => rw [write_maybe]
    | abort n m =>
      rename_i h b
      cases h with
      | none => exact subset_rfl
      | some i => simp only; rw [write_maybe]
    | op he =>
      rename_i fs fs' js j o os h h' b b'
      cases o <;> simp only [exec, Option.some.injEq, Prod.mk.injEq, Option.map_eq_some_iff] at he
      · rw [he.1]
      · rw [← he.1]
        unfold FS.openWrite
        cases fs.dir (tempPath j.path) with
        | some i => exact subset_rfl
        | none => exact upd _ _ _
      · rw [he.1]
      · obtain ⟨i, -, e, -⟩ := he; rw [← e, write_maybe]
      · obtain ⟨i, -, e, -⟩ := he; rw [← e]; exact subset_rfl
      · obtain ⟨i, -, e, -⟩ := he; rw [← e, write_maybe]
      · obtain ⟨fs1, e, rfl, -⟩ := he
        unfold FS.rename at e
        cases hd : fs.dir (tempPath j.path) with
        | none => rw [hd] at e; cases e
        | some i =>
          rw [hd] at e
          simp only at e
          split_ifs at e with hp
          · simp only [Option.some.injEq] at e; rw [e]
          · simp only [Option.some.injEq] at e
            subst e
            simp only
            have := upd (Function.update fs.maybe (tempPath j.path) (insert none (fs.maybe (tempPath j.path)))) j.path (some i)
            rw [Function.update_of_ne (fun e => hp e.symm)] at this
            exact (upd _ _ _).trans this

/-- **C84** is false: `save_state` does not write out the directory, so even after it has returned a loss of power may
bring back the previous file.  Both parts together: there is an execution in which all operations of `save_state` are done, and
in every state of every execution the previous content is among what may be found after a loss of power. -/
theorem C84_not_durable (fs₀ : FS) (j : Job) (h₀ : AtRest {tempPath j.path} fs₀) (hp : tempPath j.path ≠ j.path) :
    (∃ fs ps, Reachable fs₀ (fun _ : Unit => [j]) fs ps ∧ (ps ()).cur = some (j, [])) ∧
    ∀ fs ps, Reachable fs₀ (fun _ : Unit => [j]) fs ps → fs.AfterPowerLoss j.path (fs₀.read j.path) := by
  have hT : tempNames (fun _ : Unit => [j]) = {tempPath j.path} := by
    ext t
    simp only [tempNames, Set.mem_setOf_eq, List.mem_singleton, exists_eq_left, Set.mem_singleton_iff]
    exact ⟨fun ⟨_, h⟩ => h.symm, fun h => ⟨(), h.symm⟩⟩
  have hP : ∀ a : Unit, ∀ k ∈ (fun _ : Unit => [j]) a, k.path ∉ tempNames (fun _ : Unit => [j]) :=
    fun a k hk => by rw [hT]; rw [List.mem_singleton.mp hk]; exact hp.symm
  have hD : ∀ a b : Unit, a ≠ b → ∀ k ∈ (fun _ : Unit => [j]) a, ∀ l ∈ (fun _ : Unit => [j]) b, tempPath k.path ≠ tempPath l.path :=
    fun a b hab => absurd rfl hab
  have hq : j.path ∉ tempNames (fun _ : Unit => [j]) := hP () j (by simp)
  constructor
  · have r1 := reachable_ops (reachable_start fs₀ j) (fs' := fs₀) (h' := none) (b' := []) rfl
    have r2 := reachable_ops r1 (fs' := _) (h' := _) (b' := _) rfl
    have r3 := reachable_ops r2 (fs' := _) (h' := _) (b' := _) rfl
    have r4 := reachable_ops r3 (fs' := _) (h' := _) (b' := _) rfl
    have r5 := reachable_ops r4 (fs' := _) (h' := _) (b' := _) rfl
    have r6 := reachable_ops r5 (fs' := _) (h' := _) (b' := _) rfl
    obtain ⟨-, k2⟩ := reachable_inv (hT ▸ h₀) hP hD r6
    obtain ⟨-, hph⟩ := (k2 ()).busy j _ rfl
    cases hph with
    | rename hd _ _ =>
      have r7 := reachable_ops r6 (o := .rename) (os := []) (by
        simp only [exec]
        rw [FS.rename, hd]
        simp only [hp, if_false, Option.map_some]
        rfl)
      exact ⟨_, _, r7, rfl⟩
  · intro fs ps hr
    refine ⟨fs₀.dir j.path, maybe_mono hr _ (by rw [h₀.entries _ (by simpa using hp.symm)]; rfl), ?_⟩
    cases hd : fs₀.dir j.path with
    | none => simp only [FS.read, hd, Option.map_none]
    | some i =>
      refine ⟨fs₀.data i, by simp only [FS.read, hd, Option.map_some], ?_⟩
      have main : fs.data i = fs₀.data i := by
        have hm : ∀ {fs ps}, Reachable fs₀ (fun _ : Unit => [j]) fs ps → some i ∈ fs.maybe j.path := fun hr =>
          maybe_mono hr _ (by rw [h₀.entries _ (by simpa using hp.symm), hd]; rfl)
        induction hr with
        | init => rfl
        | step a hr' hs ih =>
          obtain ⟨k1, k2⟩ := reachable_inv (hT ▸ h₀) hP hD hr'
          obtain ⟨-, -, k3⟩ := step_own hP k1 (k2 a) hs
          rcases k3 with rfl | ⟨k, hk, hfr⟩
          · exact ih
          · obtain ⟨-, -, a3, a4⟩ := k1.some_ok _ hq i (hm hr')
            rw [(hfr.data i a3 (a4 _ ⟨(), k, hk, rfl⟩)).1]
            exact ih
      obtain ⟨k1, -⟩ := reachable_inv (hT ▸ h₀) hP hD hr
      obtain ⟨a1, -⟩ := k1.some_ok _ hq i (maybe_mono hr _ (by rw [h₀.entries _ (by simpa using hp.symm), hd]; rfl))
      intro c hc
      rw [a1, main] at hc
      exact Option.some.inj hc

/-- **C84**, partial: once all operations of `save_state` are done, the death of the process does no harm, and after a loss
of power there is a complete state, the new or the previous one.  Missing: that it is the new one (`C84_not_durable`). -/
theorem C84_survives_partial (fs₀ : FS) (j : Job) (h₀ : AtRest {tempPath j.path} fs₀) (hp : tempPath j.path ≠ j.path) (fs : FS)
    (ps : Unit → Proc) (hr : Reachable fs₀ (fun _ => [j]) fs ps) (hdone : (ps ()).cur = some (j, [])) :
    fs.read j.path = some j.content ∧ ∀ r, fs.AfterPowerLoss j.path r → r = fs₀.read j.path ∨ r = some j.content := by
  obtain ⟨h1, -, h3⟩ := C53_atomic_partial fs₀ j h₀ hp fs ps hr
  exact ⟨h3 hdone, h1.2⟩

/-! ### C57: names -/

theorem afterLast_split {c : Char} {a b : List Char} (h : c ∉ b) : afterLast c (a ++ c :: b) = b := by
  unfold afterLast
  have h' : c ∉ b.reverse := by simpa using h
  rw [List.reverse_append, List.reverse_cons, List.append_assoc, List.takeWhile_append_of_pos (by
    intro x hx; simp only [ne_eq, decide_not, Bool.not_eq_eq_eq_not, Bool.not_true, decide_eq_false_iff_not]
    rintro rfl; exact h' hx)]
  simp

theorem beforeLast_split {c : Char} {a b : List Char} (h : c ∉ b) : beforeLast c (a ++ c :: b) = a := by
  unfold beforeLast
  have h' : c ∉ b.reverse := by simpa using h
  rw [List.reverse_append, List.reverse_cons, List.append_assoc, List.dropWhile_append_of_pos (by
    intro x hx; simp only [ne_eq, decide_not, Bool.not_eq_eq_eq_not, Bool.not_true, decide_eq_false_iff_not]
    rintro rfl; exact h' hx)]
  simp

theorem afterLast_none {c : Char} {s : List Char} (h : c ∉ s) : afterLast c s = s := by
  unfold afterLast
  have h' : c ∉ s.reverse := by simpa using h
  have := List.takeWhile_append_of_pos (p := (· ≠ c)) (l₁ := s.reverse) (l₂ := []) (by
    intro x hx; simp only [ne_eq, decide_not, Bool.not_eq_eq_eq_not, Bool.not_true, decide_eq_false_iff_not]
    rintro rfl; exact h' hx)
  rw [List.append_nil, List.takeWhile_nil, List.append_nil] at this
  rw [this, List.reverse_reverse]

/-- Splitting a string at its last `c`. -/
theorem exists_last {c : Char} {s : List Char} (h : c ∈ s) : ∃ a b, s = a ++ c :: b ∧ c ∉ b := by
  induction s with
  | nil => simp at h
  | cons x s ih =>
    by_cases hs : c ∈ s
    · obtain ⟨a, b, e, hb⟩ := ih hs
      exact ⟨x :: a, b, by rw [e]; rfl, hb⟩
    · rcases List.mem_cons.mp h with rfl | h
      · exact ⟨[], s, rfl, hs⟩
      · exact absurd h hs

theorem afterLast_append {c : Char} {a b : List Char} (h : c ∉ b) : afterLast c (a ++ b) = afterLast c a ++ b := by
  by_cases ha : c ∈ a
  · obtain ⟨x, y, rfl, hy⟩ := exists_last ha
    rw [afterLast_split hy, List.append_assoc, List.cons_append, afterLast_split (by simp [hy, h])]
  · rw [afterLast_none ha, afterLast_none (by simp [ha, h])]

/-- **C53**: which paths are their own temporary path. -/
theorem C53_temp_iff (p : FilePath) : tempPath p = p ↔ ∃ stem, stem ≠ [] ∧ p.name = stem ++ ".temp".toList := by
  have e : ".temp".toList = '.' :: "temp".toList := rfl
  have hn : '.' ∉ "temp".toList := by decide
  constructor
  · intro h
    have h := congrArg FilePath.name h
    simp only [tempPath, FilePath.withSuffix] at h
    split_ifs at h with hs
    · simp only [hasSuffix, Bool.and_eq_true, decide_eq_true_eq] at hs
      exact ⟨_, hs.2, h.symm⟩
    · have := congrArg List.length h
      simp at this
  · rintro ⟨stem, h1, h2⟩
    have hs : hasSuffix p.name = true := by
      rw [h2, e]
      simp only [hasSuffix, afterLast_split hn, beforeLast_split hn, Bool.and_eq_true, decide_eq_true_eq]
      exact ⟨⟨by simp, by decide⟩, h1⟩
    unfold tempPath FilePath.withSuffix
    rw [if_pos hs]
    have : beforeLast '.' p.name = stem := by rw [h2, e, beforeLast_split hn]
    rw [this, ← h2]

/-- What identifies the save in a file name. -/
def saveTag : SaveName → List Char
  | .iter t => Nat.toDigits 10 t
  | .final => "final".toList

theorem saveTag_mem {n : SaveName} {c : Char} (h : c ∈ saveTag n) : c.isDigit = true ∨ c ∈ "final".toList := by
  cases n with
  | iter t => exact Or.inl (Nat.isDigit_of_mem_toDigits (by norm_num) (by norm_num) h)
  | final => exact Or.inr h

theorem saveTag_not {n : SaveName} {c : Char} (h1 : c.isDigit = false) (h2 : c ∉ "final".toList) : c ∉ saveTag n := by
  intro h
  rcases saveTag_mem h with h | h
  · rw [h1] at h; cases h
  · exact h2 h

theorem saveTag_inj {m n : SaveName} (h : saveTag m = saveTag n) : m = n := by
  have key : ∀ t, Nat.toDigits 10 t ≠ "final".toList := by
    intro t e
    have : 'f' ∈ Nat.toDigits 10 t := by rw [e]; decide
    have := Nat.isDigit_of_mem_toDigits (by norm_num) (by norm_num) this
    exact absurd this (by decide)
  cases m with
  | iter s =>
    cases n with
    | iter t =>
      have := congrArg (fun l => Nat.ofDigitChars 10 l 0) h
      simp only [saveTag, Nat.ofDigitChars_ten_toDigits] at this
      rw [this]
    | final => exact absurd h (key s)
  | final =>
    cases n with
    | iter t => exact absurd h.symm (key t)
    | final => rfl

theorem stateFile_eq (label : List Char) (n : SaveName) :
    stateFile label n = label ++ ('_' :: (saveTag n ++ '.' :: "state".toList)) := by
  cases n <;> rfl

theorem statePath_name (join : List Char → List Char → List Char) (out label : List Char) (n : SaveName) :
    (statePath join out label n).name = (afterLast '/' label ++ '_' :: saveTag n) ++ '.' :: "state".toList := by
  unfold statePath
  rw [stateFile_eq]
  simp only
  rw [afterLast_append]
  · simp
  · simp only [List.mem_cons, List.mem_append, not_or]
    exact ⟨by decide, saveTag_not (by decide) (by decide), by decide, by decide⟩

theorem tempPath_name (join : List Char → List Char → List Char) (out label : List Char) (n : SaveName) :
    (tempPath (statePath join out label n)).name = (afterLast '/' label ++ '_' :: saveTag n) ++ '.' :: "temp".toList := by
  have hn : '.' ∉ "state".toList := by decide
  unfold tempPath FilePath.withSuffix
  simp only [statePath_name]
  rw [if_pos, beforeLast_split hn]
  · rfl
  · simp only [hasSuffix, afterLast_split hn, beforeLast_split hn, Bool.and_eq_true, decide_eq_true_eq]
    exact ⟨⟨by simp, by decide⟩, by simp⟩

/-- The label (its part after the last slash) and the save can be read off a name. -/
theorem name_inj {l l' e : List Char} {m n : SaveName} (he : '.' ∉ e)
    (h : (l ++ '_' :: saveTag m) ++ '.' :: e = (l' ++ '_' :: saveTag n) ++ '.' :: e) : l = l' ∧ m = n := by
  have h1 := congrArg (beforeLast '.') h
  rw [beforeLast_split he, beforeLast_split he] at h1
  have hu : ∀ n, '_' ∉ saveTag n := fun n => saveTag_not (by decide) (by decide)
  have h2 := congrArg (beforeLast '_') h1
  have h3 := congrArg (afterLast '_') h1
  rw [beforeLast_split (hu m), beforeLast_split (hu n)] at h2
  rw [afterLast_split (hu m), afterLast_split (hu n)] at h3
  exact ⟨h2, saveTag_inj h3⟩

/-- **C57**: the state files of a run have different names; a temporary file never has the name of a state file, of whatever
label and directory; and with labels without slashes, neither state files nor temporary files of samplers with different
labels coincide. -/
theorem C57_names (join join' : List Char → List Char → List Char) (out out' label label' : List Char) (m n : SaveName) :
    (statePath join out label m = statePath join out label n ↔ m = n) ∧
    tempPath (statePath join out label m) ≠ statePath join' out' label' n ∧
    ('/' ∉ label → '/' ∉ label' →
      (statePath join out label m = statePath join' out' label' n → label = label' ∧ m = n) ∧
      (tempPath (statePath join out label m) = tempPath (statePath join' out' label' n) → label = label' ∧ m = n)) := by
  refine ⟨⟨fun h => ?_, fun h => by rw [h]⟩, fun h => ?_, fun hl hl' => ⟨fun h => ?_, fun h => ?_⟩⟩
  · have h := congrArg FilePath.name h
    rw [statePath_name, statePath_name] at h
    exact (name_inj (by decide) h).2
  · have h := congrArg FilePath.name h
    rw [tempPath_name, statePath_name] at h
    have h := congrArg (afterLast '.') h
    rw [afterLast_split (by decide), afterLast_split (by decide)] at h
    exact absurd h (by decide)
  · have h := congrArg FilePath.name h
    rw [statePath_name, statePath_name, afterLast_none hl, afterLast_none hl'] at h
    exact name_inj (by decide) h
  · have h := congrArg FilePath.name h
    rw [tempPath_name, tempPath_name, afterLast_none hl, afterLast_none hl'] at h
    exact name_inj (by decide) h

/-! ### C86: the state files of whole runs -/

/-- The calls of `save_state` in a run: `enc` is `dill`. -/
def saveJobs {d : ℕ} {B Φ : Type} (enc : Sampler d B Φ → List UInt8) (join : List Char → List Char → List Char)
    (out label : List Char) (saves : List (Save d B Φ)) : List Job :=
  saves.map fun sv => ⟨statePath join out label sv.name, enc sv.state⟩

/-- **C86**: samplers with different labels (without slashes) run at the same time and save to the same place.  At every
moment, and after a loss of power, every state file of every sampler holds what it held at the start or a complete state
which this very sampler saved under this very name. -/
theorem C86_run_files {ι : Type} [DecidableEq ι] {d : ℕ} {B Φ : Type} (enc : Sampler d B Φ → List UInt8)
    (join : List Char → List Char → List Char) (out : List Char) (label : ι → List Char) (hl : Function.Injective label)
    (hs : ∀ a, '/' ∉ label a) (saves : ι → List (Save d B Φ)) (fs₀ fs : FS) (ps : ι → Proc)
    (h₀ : AtRest (tempNames fun a => saveJobs enc join out (label a) (saves a)) fs₀)
    (hr : Reachable fs₀ (fun a => saveJobs enc join out (label a) (saves a)) fs ps) (a : ι) (n : SaveName)
    (r : Option (List UInt8))
    (hfound : r = fs.read (statePath join out (label a) n) ∨ fs.AfterPowerLoss (statePath join out (label a) n) r) :
    r = fs₀.read (statePath join out (label a) n) ∨ ∃ sv ∈ saves a, sv.name = n ∧ r = some (enc sv.state) := by
  have hmem : ∀ a, ∀ j ∈ saveJobs enc join out (label a) (saves a),
      ∃ sv ∈ saves a, j = ⟨statePath join out (label a) sv.name, enc sv.state⟩ := by
    intro a j hj
    obtain ⟨sv, h1, h2⟩ := List.mem_map.mp hj
    exact ⟨sv, h1, h2.symm⟩
  have hT : ∀ a n, statePath join out (label a) n ∉ tempNames fun a => saveJobs enc join out (label a) (saves a) := by
    rintro a n ⟨b, j, hj, e⟩
    obtain ⟨sv, -, rfl⟩ := hmem b j hj
    exact (C57_names join join out out (label b) (label a) sv.name n).2.1 e
  obtain ⟨k1, -⟩ := C85_concurrent_saves fs₀ _ h₀ (fun b j hj => by
      obtain ⟨sv, -, rfl⟩ := hmem b j hj
      exact hT b sv.name) (fun b c hbc j hj k hk e => by
      obtain ⟨sv, -, rfl⟩ := hmem b j hj
      obtain ⟨sv', -, rfl⟩ := hmem c k hk
      exact hbc (hl (((C57_names join join out out (label b) (label c) sv.name sv'.name).2.2 (hs b) (hs c)).2 e).1)) fs ps hr
  obtain ⟨k2, k3⟩ := k1 _ (hT a n)
  have : OldOrComplete fs₀ (fun a => saveJobs enc join out (label a) (saves a)) (statePath join out (label a) n) r := by
    rcases hfound with rfl | h
    · exact k2
    · exact k3 r h
  rcases this with h | ⟨b, j, hj, e, h⟩
  · exact Or.inl h
  · obtain ⟨sv, hsv, rfl⟩ := hmem b j hj
    obtain ⟨e1, e2⟩ := ((C57_names join join out out (label b) (label a) sv.name n).2.2 (hs b) (hs a)).1 e
    obtain rfl := hl e1
    exact Or.inr ⟨sv, hsv, e2, h⟩

/-! ### C54: save/load round trip -/

/-- **C54**, partial: saving a sampler (which always has a progress-bar attribute) and loading the file into any sampler
restores every attribute the saved one had, except the progress bar, the pool and its `map`; attributes only the loading
sampler has, and its progress bar, stay.  If the saved sampler had a pool, the loading sampler keeps its own pool and `map`.
Missing: a pool given to the loading sampler when the saved one had none (`C54_pool_lost`). -/
theorem C54_roundtrip_partial {V : Type} (isNone : V → Bool) (saved self : Dict V) (hb : saved "pbar" ≠ none) :
    ∃ st, savedDict isNone saved = .ok st ∧
      (∀ k, k ≠ "pbar" → k ≠ "pool" → k ≠ "distribute" →
        loadedDict self st k = if saved k = none then self k else saved k) ∧
      loadedDict self st "pbar" = self "pbar" ∧
      (∀ v, saved "pool" = some v → isNone v = false →
        loadedDict self st "pool" = self "pool" ∧ loadedDict self st "distribute" = self "distribute") := by
  obtain ⟨v, hv⟩ := Option.ne_none_iff_exists'.mp hb
  refine ⟨dropPool isNone (saved.erase "pbar"), by simp only [savedDict, hv], fun k h1 h2 h3 => ?_, ?_, fun v hp hn => ?_⟩
  · have : dropPool isNone (saved.erase "pbar") k = saved k := by
      unfold dropPool
      cases saved.erase "pbar" "pool" with
      | none => simp [Dict.erase, h1]
      | some v => dsimp only; split_ifs <;> simp [Dict.erase, h1, h2, h3]
    unfold loadedDict
    rw [this]
    cases saved k <;> simp
  · have : dropPool isNone (saved.erase "pbar") "pbar" = none := by
      unfold dropPool
      cases saved.erase "pbar" "pool" with
      | none => simp [Dict.erase]
      | some v => dsimp only; split_ifs <;> simp [Dict.erase]
    unfold loadedDict
    rw [this]; rfl
  · have e : dropPool isNone (saved.erase "pbar") = ((saved.erase "pbar").erase "pool").erase "distribute" := by
      unfold dropPool
      have : saved.erase "pbar" "pool" = some v := by simp [Dict.erase, hp]
      simp [this, hn]
    unfold loadedDict
    rw [e]
    simp [Dict.erase]

/-- **C54** is false for pools: a state saved by a sampler without a pool takes the pool away from any sampler that loads
it, together with its `map`. -/
theorem C54_pool_lost {V : Type} (isNone : V → Bool) (saved self : Dict V) (hb : saved "pbar" ≠ none) (v w : V)
    (hp : saved "pool" = some v) (hv : isNone v = true) (hd : saved "distribute" = some w) :
    ∃ st, savedDict isNone saved = .ok st ∧ loadedDict self st "pool" = some v ∧ loadedDict self st "distribute" = some w := by
  obtain ⟨b, hb⟩ := Option.ne_none_iff_exists'.mp hb
  have e : dropPool isNone (saved.erase "pbar") = saved.erase "pbar" := by
    unfold dropPool
    have : saved.erase "pbar" "pool" = some v := by simp [Dict.erase, hp]
    simp [this, hv]
  refine ⟨dropPool isNone (saved.erase "pbar"), by simp only [savedDict, hb], ?_, ?_⟩ <;>
  · unfold loadedDict
    rw [e]
    simp [Dict.erase, hp, hd]

/-! ### the hypotheses are met -/

/-- A disk with one file, `states/pmc_3.state`. -/
def demoFS : FS where
  dir p := if p = ⟨"states".toList, "pmc_3.state".toList⟩ then some 0 else none
  maybe p := {if p = ⟨"states".toList, "pmc_3.state".toList⟩ then some 0 else none}
  data _ := [1, 2, 3]
  disk _ := some [1, 2, 3]
  next := 1

theorem demoFS_atRest (T : Set FilePath) : AtRest T demoFS where
  entries _ _ := rfl
  contents _ _ _ _ := rfl
  numbered q i h := by
    simp only [demoFS] at h ⊢
    split_ifs at h
    cases h; exact one_pos
  nolinks p q i h1 h2 := by
    simp only [demoFS] at h1 h2
    split_ifs at h1 h2 with e1 e2
    rw [e1, e2]

/-- Saving over an existing file: the file changes from one complete state to the other, and both are seen. -/
example : let j : Job := ⟨⟨"states".toList, "pmc_3.state".toList⟩, [4, 5]⟩
    AtRest {tempPath j.path} demoFS ∧ tempPath j.path ≠ j.path ∧ demoFS.read j.path = some [1, 2, 3] ∧
    ∃ fs ps, Reachable demoFS (fun _ : Unit => [j]) fs ps ∧ fs.read j.path = some [4, 5] := by
  intro j
  have hne : tempPath j.path ≠ j.path := by decide
  refine ⟨demoFS_atRest _, hne, rfl, ?_⟩
  obtain ⟨⟨fs, ps, hr, hc⟩, -⟩ := C84_not_durable demoFS j (demoFS_atRest _) hne
  exact ⟨fs, ps, hr, (C53_atomic_partial demoFS j (demoFS_atRest _) hne fs ps hr).2.2 hc⟩

/-- The path `states/pmc.temp` is its own temporary path. -/
example : tempPath ⟨"states".toList, "pmc.temp".toList⟩ = ⟨"states".toList, "pmc.temp".toList⟩ :=
  (C53_temp_iff _).mpr ⟨"pmc".toList, by decide, rfl⟩

/-- The names of two samplers `a` and `b` with labels `pmc` and `pmc_1`. -/
example : (statePath (fun d _ => d) "states".toList "pmc".toList (.iter 12)).name = "pmc_12.state".toList ∧
    (statePath (fun d _ => d) "states".toList "pmc_1".toList (.iter 2)).name = "pmc_1_2.state".toList ∧
    (tempPath (statePath (fun d _ => d) "states".toList "x/pmc".toList .final)).name = "pmc_final.temp".toList := by
  decide

/-- Two samplers with different labels, in the setting of C86. -/
example : Function.Injective (fun b : Bool => if b then "pmc".toList else "pmc_1".toList) ∧
    ∀ b : Bool, '/' ∉ (if b then "pmc".toList else "pmc_1".toList) := by
  refine ⟨?_, ?_⟩
  · intro a b; cases a <;> cases b <;> simp
  · intro b; cases b <;> decide

/-- Dictionaries as in a sampler with a pool. -/
example : let d : Dict (Option ℕ) := fun k => if k = "pbar" then some none else if k = "pool" then some (some 4) else if k = "t" then some (some 7) else none
    ∃ st, savedDict Option.isNone d = .ok st ∧ ∀ self : Dict (Option ℕ), loadedDict self st "t" = some (some 7) ∧
      loadedDict self st "pool" = self "pool" := by
  intro d
  refine ⟨dropPool Option.isNone (d.erase "pbar"), rfl, fun self => ?_⟩
  obtain ⟨st, h1, h2, -, h4⟩ := C54_roundtrip_partial Option.isNone d self (by simp [d])
  obtain rfl : dropPool Option.isNone (d.erase "pbar") = st := by simpa [savedDict, d] using h1
  exact ⟨by rw [h2 "t" (by decide) (by decide) (by decide)]; rfl, (h4 (some 4) rfl rfl).1⟩

end Poco
