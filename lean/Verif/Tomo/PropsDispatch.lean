import Verif.Tomo.Dispatch
import Verif.Py.DictLemmas
import Mathlib.Data.Nat.Sqrt
/-
C124: which fit method tomography uses.
-/
set_option linter.unusedSimpArgs false
set_option linter.unusedVariables false
namespace Verif.Tomo
open Verif

/-- Specification: an accurate solver is installed. -/
def AccurateSolver (env : SolverEnv) : Prop :=
  env.hasCvx = true ∧ ("CVXOPT".toList ∈ env.solvers ∨ "MOSEK".toList ∈ env.solvers)

/-- Specification: some solver is installed and works. -/
def SomeSolver (env : SolverEnv) : Prop := AccurateSolver env ∨ (env.hasCvx = true ∧ "SCS".toList ∈ env.solvers ∧ env.scsWorks = true)

/-- Specification: `'auto'` is to mean `'cvx'`. -/
def AutoCvx (env : SolverEnv) : Cls → Prop
  | .process => SomeSolver env
  | _ => AccurateSolver env

/-- The attributes are as the environment says wherever they are set, and the exactness flag is set with them. -/
structure Consistent (env : SolverEnv) (a : ClsAttrs) : Prop where
  sdp : ∀ c b, a.sdp c = some b → (b = true ↔ SomeSolver env)
  notScs : ∀ c b, c ≠ .base → a.notScs c = some b → (b = true ↔ AccurateSolver env)
  base : ∃ b, a.notScs .base = some b ∧ (b = true → AccurateSolver env) ∧ (a.sdp .base ≠ none → AccurateSolver env → b = true)
  set : ∀ c, c ≠ .base → a.sdp c ≠ none → AccurateSolver env → a.notScs c = some true

theorem consistent_fresh (env : SolverEnv) : Consistent env freshAttrs := by
  refine ⟨?_, ?_, ⟨false, rfl, by simp, by simp [freshAttrs]⟩, ?_⟩
  · intro c b h; simp [freshAttrs] at h
  · intro c b hc h
    simp only [freshAttrs, if_neg hc] at h
    cases h
  · intro c _ h; exact absurd rfl h

theorem accurate_iff (env : SolverEnv) :
    (env.hasCvx && (env.solvers.contains "CVXOPT".toList || env.solvers.contains "MOSEK".toList)) = true ↔ AccurateSolver env := by
  unfold AccurateSolver
  rw [Bool.and_eq_true, Bool.or_eq_true, List.contains_iff_mem, List.contains_iff_mem]

theorem scs_iff (env : SolverEnv) :
    (env.hasCvx && env.solvers.contains "SCS".toList && env.scsWorks) = true ↔
      (env.hasCvx = true ∧ "SCS".toList ∈ env.solvers ∧ env.scsWorks = true) := by
  rw [Bool.and_eq_true, Bool.and_eq_true, List.contains_iff_mem, and_assoc]

theorem consistent_check (env : SolverEnv) (c : Cls) (a : ClsAttrs) (h : Consistent env a) :
    Consistent env (checkSolver env c a) ∧ (checkSolver env c a).getSdp c ≠ none := by
  unfold checkSolver
  obtain ⟨h1, h2, ⟨b0, hb0, hb1, hb2⟩, h4⟩ := h
  split
  · rename_i hn
    have hcn : a.sdp c = none := by
      unfold ClsAttrs.getSdp at hn
      cases hc : a.sdp c with
      | none => rfl
      | some v => rw [hc] at hn; cases hn
    split
    · rename_i hacc
      rw [accurate_iff] at hacc
      refine ⟨⟨?_, ?_, ?_, ?_⟩, ?_⟩
      · intro c' b hb
        simp only [ClsAttrs.setSdp, ClsAttrs.setNotScs] at hb
        split at hb
        · obtain rfl := Option.some.inj hb; simp [SomeSolver, hacc]
        · exact h1 c' b hb
      · intro c' b hc' hb
        simp only [ClsAttrs.setSdp, ClsAttrs.setNotScs] at hb
        split at hb
        · obtain rfl := Option.some.inj hb; simp [hacc]
        · exact h2 c' b hc' hb
      · simp only [ClsAttrs.setSdp, ClsAttrs.setNotScs]
        by_cases hcb : Cls.base = c
        · exact ⟨true, if_pos hcb, fun _ => hacc, fun _ _ => rfl⟩
        · refine ⟨b0, by rw [if_neg hcb, hb0], hb1, ?_⟩
          rw [if_neg hcb]; exact hb2
      · intro c' hc' hs hac
        simp only [ClsAttrs.setSdp, ClsAttrs.setNotScs] at hs ⊢
        by_cases hcc : c' = c
        · rw [if_pos hcc]
        · rw [if_neg hcc] at hs ⊢; exact h4 c' hc' hs hac
      · simp [ClsAttrs.getSdp, ClsAttrs.setSdp]
    · rename_i hacc
      rw [accurate_iff] at hacc
      have key : ∀ v : Bool, (v = true ↔ SomeSolver env) → Consistent env (a.setSdp c v) ∧ (a.setSdp c v).getSdp c ≠ none := by
        intro v hv
        refine ⟨⟨?_, ?_, ?_, ?_⟩, by simp [ClsAttrs.getSdp, ClsAttrs.setSdp]⟩
        · intro c' b hb
          simp only [ClsAttrs.setSdp] at hb
          split at hb
          · obtain rfl := Option.some.inj hb; exact hv
          · exact h1 c' b hb
        · exact h2
        · exact ⟨b0, hb0, hb1, fun _ hac => absurd hac hacc⟩
        · intro _ _ _ hac; exact absurd hac hacc
      split
      · rename_i hscs
        exact key true ⟨fun _ => Or.inr ((scs_iff env).1 hscs), fun _ => rfl⟩
      · rename_i hscs
        refine key false ?_
        rw [scs_iff] at hscs
        simp only [Bool.false_eq_true, false_iff, SomeSolver]
        rintro (h | h)
        · exact hacc h
        · exact hscs h
  · rename_i hn
    exact ⟨⟨h1, h2, ⟨b0, hb0, hb1, hb2⟩, h4⟩, hn⟩

theorem getSdp_iff (env : SolverEnv) (c : Cls) (a : ClsAttrs) (h : Consistent env a) (hn : a.getSdp c ≠ none) :
    a.getSdp c = some true ↔ SomeSolver env := by
  unfold ClsAttrs.getSdp at hn ⊢
  cases hc : a.sdp c with
  | some b =>
    rw [Option.some_or, Option.some.injEq]
    exact h.sdp c b hc
  | none =>
    rw [hc, Option.none_or] at hn
    rw [Option.none_or]
    cases hb : a.sdp .base with
    | none => exact absurd hb hn
    | some b =>
      rw [Option.some.injEq]
      exact h.sdp .base b hb

theorem getNotScs_iff (env : SolverEnv) (c : Cls) (a : ClsAttrs) (h : Consistent env a) (hn : a.getSdp c ≠ none) :
    a.getNotScs c = true ↔ AccurateSolver env := by
  obtain ⟨b0, hb0, hb1, hb2⟩ := h.base
  unfold ClsAttrs.getNotScs ClsAttrs.getSdp at *
  by_cases hc : c = .base
  · subst hc
    rw [hb0]
    simp only [Option.some_or, Option.getD_some]
    refine ⟨hb1, hb2 ?_⟩
    intro e; rw [e] at hn; exact hn rfl
  · cases hv : a.notScs c with
    | some b =>
      simp only [Option.some_or, Option.getD_some]
      exact h.notScs c b hc hv
    | none =>
      rw [hb0]
      simp only [Option.none_or, Option.getD_some]
      refine ⟨hb1, fun hac => ?_⟩
      have hs : a.sdp c = none := by
        by_contra hs
        have := h.set c hc hs hac
        rw [hv] at this; cases this
      rw [hs, Option.none_or] at hn
      exact hb2 hn hac

/-- What a use does, as a function of the environment and the arguments only. -/
noncomputable def plainUse (env : SolverEnv) (u : FitUse) : Except FitErr FitCall := open Classical in
  let method := if u.args.method = "auto".toList then (if AutoCvx env u.cls then "cvx".toList else "lstsq".toList) else u.args.method
  (FitUse.run env { u with args := { u.args with method := method } } freshAttrs).2

theorem autoNames : "cvx".toList ≠ "auto".toList ∧ "lstsq".toList ≠ "auto".toList := by decide

theorem runFit_spec (env : SolverEnv) (c : Cls) (hc : c ≠ .process) (a : ClsAttrs) (h : Consistent env a) (ok : Bool) (method : Str) (standard : Bool) (beta : ℚ)
    (psd trace tp : ArgVal) (extra : Dict Str ArgVal) (m' : Str)
    (hm : (method = "auto".toList → (AutoCvx env c ∧ m' = "cvx".toList) ∨ (¬ AutoCvx env c ∧ m' = "lstsq".toList)) ∧
      (method ≠ "auto".toList → m' = method)) :
    Consistent env (runFit env c a ok method standard beta psd trace tp extra).1 ∧
    (runFit env c a ok method standard beta psd trace tp extra).2 = (runFit env c freshAttrs ok m' standard beta psd trace tp extra).2 := by
  unfold runFit
  cases ok with
  | false => exact ⟨h, rfl⟩
  | true =>
    simp only [Bool.not_true, Bool.false_eq_true, if_false]
    by_cases hauto : method = "auto".toList
    · obtain ⟨hk1, hk2⟩ := consistent_check env c a h
      have hn := getNotScs_iff env c _ hk1 hk2
      rcases hm.1 hauto with ⟨hA, rfl⟩ | ⟨hA, rfl⟩
      · have hA' : AccurateSolver env := by cases c <;> first | exact hA | exact absurd rfl hc
        rw [if_pos hauto, if_pos hauto, hn.2 hA', if_pos rfl, if_neg autoNames.1]
        simp only [if_neg autoNames.1]
        split
        · exact ⟨hk1, rfl⟩
        · split
          · exact ⟨hk1, rfl⟩
          · exact ⟨hk1, rfl⟩
      · have hA' : ¬ AccurateSolver env := by cases c <;> first | exact hA | exact absurd rfl hc
        rw [if_pos hauto, if_pos hauto, if_neg (fun e => hA' (hn.1 e)), if_neg autoNames.2]
        simp only [if_neg autoNames.2]
        split
        · exact ⟨hk1, rfl⟩
        · split
          · exact ⟨hk1, rfl⟩
          · exact ⟨hk1, rfl⟩
    · rw [hm.2 hauto]
      simp only [if_neg hauto]
      split
      · exact ⟨h, rfl⟩
      · split
        · exact ⟨h, rfl⟩
        · exact ⟨h, rfl⟩

theorem run_spec (env : SolverEnv) (u : FitUse) (a : ClsAttrs) (h : Consistent env a) :
    Consistent env (u.run env a).1 ∧ (u.run env a).2 = plainUse env u := by
  classical
  obtain ⟨c, cols, x⟩ := u
  have hm : ∀ (m' : Str), m' = (if x.method = "auto".toList then (if AutoCvx env c then "cvx".toList else "lstsq".toList) else x.method) →
      (x.method = "auto".toList → (AutoCvx env c ∧ m' = "cvx".toList) ∨ (¬ AutoCvx env c ∧ m' = "lstsq".toList)) ∧
      (x.method ≠ "auto".toList → m' = x.method) := by
    rintro m' rfl
    constructor
    · intro hx
      rw [if_pos hx]
      by_cases hA : AutoCvx env c
      · exact Or.inl ⟨hA, if_pos hA⟩
      · exact Or.inr ⟨hA, if_neg hA⟩
    · intro hx
      rw [if_neg hx]
  cases c with
  | base => exact runFit_spec env .base (by simp) a h _ _ _ _ _ _ _ _ _ (hm _ rfl)
  | state =>
    unfold plainUse FitUse.run
    simp only [stateFit]
    split
    · exact ⟨h, rfl⟩
    · exact runFit_spec env .state (by simp) a h _ _ _ _ _ _ _ _ _ (hm _ rfl)
  | process =>
    have hm := hm _ rfl
    unfold plainUse FitUse.run
    simp only
    generalize (if x.method = "auto".toList then (if AutoCvx env Cls.process then "cvx".toList else "lstsq".toList) else x.method) = m' at hm
    unfold processFit
    cases cols with
    | none => exact ⟨h, rfl⟩
    | some cols =>
      simp only
      split
      · exact ⟨h, rfl⟩
      · by_cases hauto : x.method = "auto".toList
        · obtain ⟨hk1, hk2⟩ := consistent_check env .process a h
          have hn := getSdp_iff env .process _ hk1 hk2
          rcases hm.1 hauto with ⟨hA, rfl⟩ | ⟨hA, rfl⟩
          · rw [if_pos hauto, if_pos hauto, if_pos (hn.2 hA)]
            simp only [if_neg autoNames.1]
            split
            · exact ⟨hk1, rfl⟩
            · split
              · exact ⟨hk1, rfl⟩
              · exact ⟨hk1, rfl⟩
          · rw [if_pos hauto, if_pos hauto, if_neg (fun e => hA (hn.1 e))]
            simp only [if_neg autoNames.2]
            split
            · exact ⟨hk1, rfl⟩
            · split
              · exact ⟨hk1, rfl⟩
              · exact ⟨hk1, rfl⟩
        · rw [hm.2 hauto]
          simp only [if_neg hauto]
          split
          · exact ⟨h, rfl⟩
          · split
            · exact ⟨h, rfl⟩
            · exact ⟨h, rfl⟩

/-- The attributes after a history of uses. -/
def afterUses (env : SolverEnv) (us : List FitUse) : ClsAttrs := us.foldl (fun a u => (u.run env a).1) freshAttrs

theorem consistent_after (env : SolverEnv) (us : List FitUse) : Consistent env (afterUses env us) := by
  unfold afterUses
  have : ∀ a, Consistent env a → Consistent env (us.foldl (fun a u => (u.run env a).1) a) := by
    induction us with
    | nil => intro a h; exact h
    | cons u us ih => intro a h; exact ih _ (run_spec env u a h).1
  exact this _ (consistent_fresh env)

/-- **C124** (no memory).  With the installation unchanged, after any history of fits of any fitters a fit makes the call it would make as
the first one, although the search for a solver is remembered on the classes. -/
theorem C124_history (env : SolverEnv) (us us' : List FitUse) (u : FitUse) :
    (u.run env (afterUses env us)).2 = (u.run env (afterUses env us')).2 := by
  rw [(run_spec env u _ (consistent_after env us)).2, (run_spec env u _ (consistent_after env us')).2]

/-- **C124** (automatic choice).  After any history `'auto'` does what `'cvx'` does if a solver is there (for states and the base class:
another solver than SCS), and what `'lstsq'` does otherwise. -/
theorem C124_auto (env : SolverEnv) (us : List FitUse) (u : FitUse) (hu : u.args.method = "auto".toList) :
    (AutoCvx env u.cls → (u.run env (afterUses env us)).2 =
      (FitUse.run env { u with args := { u.args with method := "cvx".toList } } (afterUses env us)).2) ∧
    (¬ AutoCvx env u.cls → (u.run env (afterUses env us)).2 =
      (FitUse.run env { u with args := { u.args with method := "lstsq".toList } } (afterUses env us)).2) := by
  have h := consistent_after env us
  constructor
  · intro hA
    rw [(run_spec env u _ h).2, (run_spec env _ _ h).2]
    unfold plainUse
    simp only [if_pos hu, if_pos hA, if_neg autoNames.1]
  · intro hA
    rw [(run_spec env u _ h).2, (run_spec env _ _ h).2]
    unfold plainUse
    simp only [if_pos hu, if_neg hA, if_neg autoNames.2]

/-- **C124** (unknown methods).  A method other than the three never makes a call. -/
theorem C124_unknown (env : SolverEnv) (us : List FitUse) (u : FitUse) (h1 : u.args.method ≠ "auto".toList)
    (h2 : u.args.method ≠ "lstsq".toList) (h3 : u.args.method ≠ "cvx".toList) :
    ∃ e, (u.run env (afterUses env us)).2 = .error e := by
  generalize afterUses env us = a
  obtain ⟨c, cols, x⟩ := u
  simp only at h1 h2 h3
  have hb : ∀ c (kw : Dict Str ArgVal), ∃ e, (baseFit env c a cols.isSome { x with kwargs := kw }).2 = .error e := by
    intro c kw
    unfold baseFit runFit
    simp only [if_neg h1, if_neg h2, if_neg h3]
    split
    · exact ⟨_, rfl⟩
    · exact ⟨_, rfl⟩
  cases c with
  | base => exact hb .base x.kwargs
  | state =>
    unfold FitUse.run
    simp only [stateFit]
    split
    · exact ⟨_, rfl⟩
    · exact hb .state _
  | process =>
    unfold FitUse.run
    simp only [processFit]
    cases cols with
    | none => exact ⟨_, rfl⟩
    | some cols =>
      simp only [if_neg h1, if_neg h2, if_neg h3]
      split
      · exact ⟨_, rfl⟩
      · exact ⟨_, rfl⟩

theorem getD_set_self' (d : Dict Str ArgVal) (k : Str) (v z : ArgVal) : (d.set k v).getD k z = v := by
  rw [Dict.getD, Dict.get?_set, if_pos rfl]; rfl

/-- **C124** (states).  Every call of a state fit, whatever the history and the arguments, asks for a positive semidefinite matrix of trace
one, with the weights and the hedging parameter of the caller. -/
theorem C124_state (env : SolverEnv) (us : List FitUse) (cols : Option ℕ) (x : FitArgs) (call : FitCall)
    (h : (FitUse.run env ⟨.state, cols, x⟩ (afterUses env us)).2 = .ok call) :
    call = .lstsq x.standard x.beta (.bool true) (.num 1) ∨
    ∃ extra, call = .cvx x.standard x.beta (.bool true) (.num 1) (x.kwargs.getD "trace_preserving".toList (.bool false)) extra := by
  generalize afterUses env us = a at h
  unfold FitUse.run at h
  simp only [stateFit] at h
  split at h
  · cases h
  · have e1 : ((x.kwargs.set "trace".toList (.num 1)).set "psd".toList (.bool true)).getD "psd".toList (.bool true) = .bool true :=
      getD_set_self' _ _ _ _
    have e2 : ((x.kwargs.set "trace".toList (.num 1)).set "psd".toList (.bool true)).getD "trace".toList .none = .num 1 := by
      rw [Dict.getD, Dict.get?_set, if_neg (by decide)]
      exact getD_set_self' _ _ _ .none
    have e3 : ((x.kwargs.set "trace".toList (.num 1)).set "psd".toList (.bool true)).getD "trace_preserving".toList (.bool false) =
        x.kwargs.getD "trace_preserving".toList (.bool false) := by
      rw [Dict.getD, Dict.get?_set, if_neg (by decide), Dict.get?_set, if_neg (by decide)]; rfl
    unfold baseFit runFit at h
    simp only [e1, e2, e3] at h
    split at h
    · cases h
    · generalize (if x.method = "auto".toList then checkSolver env Cls.state a else a) = a' at h
      generalize (if x.method = "auto".toList then (if a'.getNotScs Cls.state = true then "cvx".toList else "lstsq".toList)
        else x.method) = m' at h
      split at h
      · split at h
        · exact Or.inl (Except.ok.inj h).symm
        · cases h
      · split at h
        · split at h
          · cases h
          · exact Or.inr ⟨_, (Except.ok.inj h).symm⟩
        · cases h

/-- **C124** (processes).  Every call of a process fit is for data with `d⁴` columns and asks for the trace `d`; with the convex program also
for a trace preserving map; it is positive semidefinite unless the caller says otherwise. -/
theorem C124_process (env : SolverEnv) (us : List FitUse) (cols : Option ℕ) (x : FitArgs) (call : FitCall)
    (h : (FitUse.run env ⟨.process, cols, x⟩ (afterUses env us)).2 = .ok call) :
    ∃ d : ℕ, cols = some (d ^ 4) ∧
      (call = .lstsq x.standard x.beta (x.kwargs.getD "psd".toList (.bool true)) (.num d) ∨
      ∃ extra, call = .cvx x.standard x.beta (x.kwargs.getD "psd".toList (.bool true)) (.num d) (.bool true) extra) := by
  generalize afterUses env us = a at h
  unfold FitUse.run at h
  simp only [processFit] at h
  cases cols with
  | none => cases h
  | some cols =>
    simp only at h
    split at h
    · cases h
    · rename_i hd
      refine ⟨Nat.sqrt (Nat.sqrt cols), by rw [not_not.1 hd], ?_⟩
      generalize (if x.method = "auto".toList then checkSolver env Cls.process a else a) = a' at h
      generalize (if x.method = "auto".toList then (if a'.getSdp Cls.process = some true then "cvx".toList else "lstsq".toList)
        else x.method) = m' at h
      split at h
      · split at h
        · exact Or.inl (Except.ok.inj h).symm
        · cases h
      · split at h
        · split at h
          · cases h
          · exact Or.inr ⟨_, (Except.ok.inj h).symm⟩
        · cases h

/-- Finding: the documented arguments `psd` and `trace` of a state fit always end in a `TypeError`, as do `trace` of a process fit and
`trace_preserving`. -/
theorem C124_finding_keywords (env : SolverEnv) (us : List FitUse) (cols : Option ℕ) (x : FitArgs) :
    ((x.kwargs.has "psd".toList = true ∨ x.kwargs.has "trace".toList = true) →
      (FitUse.run env ⟨.state, cols, x⟩ (afterUses env us)).2 = .error .typeError) ∧
    ((x.kwargs.has "trace".toList = true ∨ x.kwargs.has "trace_preserving".toList = true) →
      ∃ e, (FitUse.run env ⟨.process, cols, x⟩ (afterUses env us)).2 = .error e) := by
  generalize afterUses env us = a
  constructor
  · intro h
    unfold FitUse.run
    simp only [stateFit]
    rw [if_pos (by rw [Bool.or_eq_true]; exact h)]
  · intro h
    unfold FitUse.run
    simp only [processFit]
    cases cols with
    | none => exact ⟨_, rfl⟩
    | some cols =>
      simp only
      split
      · exact ⟨_, rfl⟩
      · generalize (if x.method = "auto".toList then checkSolver env Cls.process a else a) = a'
        generalize (if x.method = "auto".toList then (if a'.getSdp Cls.process = some true then "cvx".toList else "lstsq".toList)
          else x.method) = m'
        split
        · rw [if_neg]
          · exact ⟨_, rfl⟩
          · intro he
            have hempty : without x.kwargs ["psd".toList] = [] := List.isEmpty_iff.1 he
            have key : ∀ k : Str, k ≠ "psd".toList → x.kwargs.has k = true → False := by
              intro k hk hh
              obtain ⟨v, hv⟩ := Option.isSome_iff_exists.1 (by simpa [Dict.has] using hh)
              have hmem := Dict.get?_mem _ _ _ hv
              have : (k, v) ∈ without x.kwargs ["psd".toList] := by
                unfold without
                rw [List.mem_filter]
                exact ⟨hmem, by simpa using hk⟩
              rw [hempty] at this
              cases this
            rcases h with h | h
            · exact key _ (by decide) h
            · exact key _ (by decide) h
        · split
          · rw [if_pos]
            · exact ⟨_, rfl⟩
            · rw [List.any_eq_true]
              rcases h with h | h
              · exact ⟨_, by simp, h⟩
              · exact ⟨_, by simp, h⟩
          · exact ⟨_, rfl⟩

/-- Finding: with SCS as the only solver the same default `'auto'`, documented alike, runs the least squares fit for states and the convex
program for processes. -/
theorem C124_finding_scs : ∃ env : SolverEnv, env.hasCvx = true ∧
    (FitUse.run env ⟨.state, some 4, {}⟩ freshAttrs).2 = .ok (.lstsq true (1/2) (.bool true) (.num 1)) ∧
    (FitUse.run env ⟨.process, some 16, {}⟩ freshAttrs).2 = .ok (.cvx true (1/2) (.bool true) (.num 2) (.bool true) []) :=
  ⟨⟨true, ["SCS".toList], true⟩, rfl, rfl, by
    unfold FitUse.run processFit
    simp only
    have : Nat.sqrt (Nat.sqrt 16) = 2 := by rw [show (16 : ℕ) = 4 ^ 2 from rfl, Nat.sqrt_eq', show (4 : ℕ) = 2 ^ 2 from rfl, Nat.sqrt_eq']
    rw [this]
    rfl⟩

/-- C124 applies: with CVXOPT, after a process fit and a failed fit, a state fit runs the convex program. -/
example : (FitUse.run ⟨true, ["SCS".toList, "CVXOPT".toList], true⟩ ⟨.state, some 4, {}⟩
    (afterUses ⟨true, ["SCS".toList, "CVXOPT".toList], true⟩
      [⟨.process, some 16, {}⟩, ⟨.base, some 4, { method := "mle".toList }⟩])).2 =
    .ok (.cvx true (1/2) (.bool true) (.num 1) (.bool false) []) := by
  have hA : AutoCvx ⟨true, ["SCS".toList, "CVXOPT".toList], true⟩ .state := ⟨rfl, Or.inl (by simp)⟩
  rw [(C124_auto _ _ ⟨.state, some 4, {}⟩ rfl).1 hA]
  rfl

end Verif.Tomo
