import Verif.Model.Cache
import Mathlib.Tactic.Common

/-!
C77: cached functions, for all histories and crashes. C98: `npy_cached`.
-/

set_option autoImplicit false

namespace Verif

variable {α β ε π : Type} [DecidableEq π]

/-- Every completely written file holds the value of the function for all arguments with this path. -/
def CacheInv (f : α → Except ε (Option β)) (path : α → Option π) (files : π → CacheFile β) : Prop :=
  ∀ p v, files p = .complete v → ∀ a, path a = some p → f a = .ok v

theorem inv_update {f : α → Except ε (Option β)} {path : α → Option π} {files : π → CacheFile β} (h : CacheInv f path files) (p : π) (c : CacheFile β)
    (hc : ∀ v, c = .complete v → ∀ a, path a = some p → f a = .ok v) : CacheInv f path (Function.update files p c) := by
  intro q v hq a ha
  by_cases hpq : q = p
  · subst hpq
    rw [Function.update_self] at hq
    exact hc v hq a ha
  · rw [Function.update_of_ne hpq] at hq
    exact h q v hq a ha

theorem inv_callCached {f : α → Except ε (Option β)} {path : α → Option π} {files : π → CacheFile β} (hp : ∀ a b p, path a = some p → path b = some p → f a = f b)
    (h : CacheInv f path files) (a : α) (fate : Fate) : CacheInv f path (callCached f path files a fate).files := by
  unfold callCached
  cases hf : f a with
  | error e => exact h
  | ok v =>
    cases hpa : path a with
    | none => exact h
    | some p =>
      cases fate with
      | completes =>
        refine inv_update h p _ fun w hw b hb => ?_
        cases hw
        rw [← hp a b p hpa hb, hf]
      | openFails => exact h
      | pickleFails => exact inv_update h p _ fun w hw => by cases hw
      | killedBefore => exact h
      | killedInside => exact inv_update h p _ fun w hw => by cases hw

theorem uncached_files (f : α → Except ε (Option β)) (files : π → CacheFile β) (a : α) : (callUncached f files a).files = files := by
  unfold callUncached; cases f a <;> rfl

theorem inv_callWith {f : α → Except ε (Option β)} {path : α → Option π} {files : π → CacheFile β} (hp : ∀ a b p, path a = some p → path b = some p → f a = f b)
    (h : CacheInv f path files) (mode : CallType) (a : α) (fate : Fate) : CacheInv f path (callWith f path files mode a fate).files := by
  cases mode with
  | callCached => exact inv_callCached hp h a fate
  | callUncached => simp only [callWith]; rw [uncached_files]; exact h
  | loadOrCallCached =>
    simp only [callWith, loadOrCallCached]
    cases loadCache path files a with
    | raises => exact h
    | value v =>
      cases v with
      | none => exact inv_callCached hp h a fate
      | some v => exact h
  | loadOrCallUncached =>
    simp only [callWith, loadOrCallUncached]
    cases loadCache path files a with
    | raises => exact h
    | value v =>
      cases v with
      | none => simp only []; rw [uncached_files]; exact h
      | some v => exact h

theorem inv_history {f : α → Except ε (Option β)} {path : α → Option π} (hp : ∀ a b p, path a = some p → path b = some p → f a = f b)
    (es : List (CacheEvent α π)) (files : π → CacheFile β) (h : CacheInv f path files) : CacheInv f path (runHistory f path es files) := by
  induction es generalizing files with
  | nil => exact h
  | cons e es ih =>
    cases e with
    | call mode a fate => exact ih _ (inv_callWith hp h mode a fate)
    | delete p => exact ih _ (inv_update h p _ fun w hw => by cases hw)

theorem callCached_outcome (f : α → Except ε (Option β)) (path : α → Option π) (files : π → CacheFile β) (a : α) (fate : Fate) :
    (∀ v, (callCached f path files a fate).outcome = .returned v → f a = .ok v) ∧
    (∀ e, (callCached f path files a fate).outcome = .raised e → f a = .error e) := by
  unfold callCached
  cases hf : f a with
  | error e => simp
  | ok v =>
    cases path a with
    | none => simp
    | some p => cases fate <;> simp

theorem callUncached_outcome (f : α → Except ε (Option β)) (files : π → CacheFile β) (a : α) :
    (∀ v, (callUncached f files a).outcome = .returned v → f a = .ok v) ∧
    (∀ e, (callUncached f files a).outcome = .raised e → f a = .error e) := by
  unfold callUncached
  cases hf : f a <;> simp

/-- **C77** (when arguments with different values have different paths): after every history of calls in any mode, crashes, failed writes and deletions, a call
in any mode returns the value of the function for its own arguments, or raises what the function raises for them, or reports the torn file or
failed write; it never returns the value of another call. The missing part is a path shared between arguments with different values, which the
decorator accepts; see `C77_shared_negation`. -/
theorem C77_history_partial (f : α → Except ε (Option β)) (path : α → Option π) (hp : ∀ a b p, path a = some p → path b = some p → f a = f b)
    (es : List (CacheEvent α π)) (mode : CallType) (a : α) (fate : Fate) :
    (∀ v, (callWith f path (runHistory f path es fun _ => .missing) mode a fate).outcome = .returned v → f a = .ok v) ∧
    (∀ e, (callWith f path (runHistory f path es fun _ => .missing) mode a fate).outcome = .raised e → f a = .error e) := by
  have h : CacheInv f path (runHistory f path es fun _ => .missing) := inv_history hp es _ fun p v hv => by cases hv
  generalize runHistory f path es (fun _ => .missing) = files at h
  have hl : ∀ v, loadCache path files a = .value (some v) → f a = .ok (some v) := by
    intro v hv
    unfold loadCache at hv
    cases hpa : path a with
    | none => rw [hpa] at hv; cases hv
    | some p =>
      rw [hpa] at hv
      cases hfp : files p with
      | missing => simp only [hfp] at hv; cases hv
      | torn => simp only [hfp] at hv; cases hv
      | complete w =>
        simp only [hfp] at hv
        cases hv
        exact h p _ hfp a hpa
  cases mode with
  | callCached => exact callCached_outcome f path files a fate
  | callUncached => exact callUncached_outcome f files a
  | loadOrCallCached =>
    simp only [callWith, loadOrCallCached]
    cases hc : loadCache path files a with
    | raises => simp
    | value v =>
      cases v with
      | none => exact callCached_outcome f path files a fate
      | some v =>
        refine ⟨fun w hw => ?_, fun e he => by cases he⟩
        cases hw
        exact hl v hc
  | loadOrCallUncached =>
    simp only [callWith, loadOrCallUncached]
    cases hc : loadCache path files a with
    | raises => simp
    | value v =>
      cases v with
      | none => exact callUncached_outcome f files a
      | some v =>
        refine ⟨fun w hw => ?_, fun e he => by cases he⟩
        cases hw
        exact hl v hc

/-- **C77** fails for a shared path: the constant path which the decorator also accepts makes a call return the value of another call. -/
theorem C77_shared_negation : ∃ (f : ℕ → Except Unit (Option ℕ)) (path : ℕ → Option Unit) (es : List (CacheEvent ℕ Unit)) (a v : ℕ),
    (callWith f path (runHistory f path es fun _ => .missing) .loadOrCallCached a .completes).outcome = .returned (some v) ∧ f a ≠ .ok (some v) :=
  ⟨fun a => .ok (some a), fun _ => some (), [.call .loadOrCallCached 1 .completes], 2, 1, rfl, by simp⟩

/-- The event does not replace the file at `p`. -/
def Keeps (path : α → Option π) (p : π) : CacheEvent α π → Prop
  | .call .callCached a _ => path a ≠ some p
  | .call _ _ _ => True
  | .delete q => q ≠ p

theorem callCached_other (f : α → Except ε (Option β)) (path : α → Option π) (files : π → CacheFile β) (a : α) (fate : Fate) (p : π) (h : path a ≠ some p) :
    (callCached f path files a fate).files p = files p := by
  unfold callCached
  cases f a with
  | error e => rfl
  | ok v =>
    cases hpa : path a with
    | none => rfl
    | some q =>
      have : p ≠ q := fun e => h (by rw [hpa, e])
      cases fate <;> simp [Function.update_of_ne this]

/-- A file which loads as a value other than `None`, or raises, stays as it is. -/
theorem file_kept (f : α → Except ε (Option β)) (path : α → Option π) (p : π) (c : CacheFile β) (hc : c = .torn ∨ ∃ v, c = .complete (some v))
    (es : List (CacheEvent α π)) (hes : ∀ e ∈ es, Keeps path p e) (files : π → CacheFile β) (h : files p = c) : runHistory f path es files p = c := by
  induction es generalizing files with
  | nil => exact h
  | cons e es ih =>
    have ih' := ih fun e he => hes e (List.mem_cons_of_mem _ he)
    have he := hes e List.mem_cons_self
    cases e with
    | delete q =>
      refine ih' _ ?_
      rw [Function.update_of_ne (Ne.symm he)]; exact h
    | call mode a fate =>
      refine ih' _ ?_
      by_cases hpa : path a = some p
      · have hl : loadCache path files a ≠ .value none := by
          unfold loadCache
          simp only [hpa, h]
          rcases hc with rfl | ⟨v, rfl⟩ <;> simp
        cases mode with
        | callCached => exact absurd hpa he
        | callUncached => simp only [callWith]; rw [uncached_files]; exact h
        | loadOrCallCached =>
          simp only [callWith, loadOrCallCached]
          cases hv : loadCache path files a with
          | raises => exact h
          | value v => cases v with
            | none => exact absurd hv hl
            | some v => exact h
        | loadOrCallUncached =>
          simp only [callWith, loadOrCallUncached]
          cases hv : loadCache path files a with
          | raises => exact h
          | value v => cases v with
            | none => exact absurd hv hl
            | some v => exact h
      · cases mode with
        | callCached => rw [← h]; exact callCached_other f path files a fate p hpa
        | callUncached => simp only [callWith]; rw [uncached_files]; exact h
        | loadOrCallCached =>
          simp only [callWith, loadOrCallCached]
          cases hv : loadCache path files a with
          | raises => exact h
          | value v => cases v with
            | none => rw [← h]; exact callCached_other f path files a fate p hpa
            | some v => exact h
        | loadOrCallUncached =>
          simp only [callWith, loadOrCallUncached]
          cases hv : loadCache path files a with
          | raises => exact h
          | value v => cases v with
            | none => simp only []; rw [uncached_files]; exact h
            | some v => exact h

/-- **C77**, crashes: when the process is killed while the cache is written, every later call which uses the cached data raises, in every process, until the
file is deleted or `call_cached` is used. -/
theorem C77_torn (f : α → Except ε (Option β)) (path : α → Option π) (files : π → CacheFile β) (a : α) (p : π) (v : Option β) (hp : path a = some p) (hf : f a = .ok v)
    (hmiss : files p = .missing) (es : List (CacheEvent α π)) (hes : ∀ e ∈ es, Keeps path p e) (b : α) (hb : path b = some p) (fate : Fate) :
    (callWith f path files .loadOrCallCached a .killedInside).outcome = .killed ∧
    ∀ mode, mode = .loadOrCallCached ∨ mode = .loadOrCallUncached →
    (callWith f path (runHistory f path es (callWith f path files .loadOrCallCached a .killedInside).files) mode b fate).outcome = .torn := by
  have h0 : callWith f path files .loadOrCallCached a .killedInside = ⟨.killed, Function.update files p .torn, 1⟩ := by
    simp [callWith, loadOrCallCached, loadCache, callCached, hp, hmiss, hf]
  rw [h0]
  refine ⟨rfl, fun mode hm => ?_⟩
  have hk := file_kept f path p .torn (Or.inl rfl) es hes _ (Function.update_self p .torn files)
  simp only []
  rcases hm with rfl | rfl
  · simp [callWith, loadOrCallCached, loadCache, hb, hk]
  · simp [callWith, loadOrCallUncached, loadCache, hb, hk]

/-- **C77**, effect of the cache: once a call has stored a value other than `None`, every later call which uses the cached data returns it without
calling the function, until the file is deleted or `call_cached` is used. -/
theorem C77_hit (f : α → Except ε (Option β)) (path : α → Option π) (files : π → CacheFile β) (a : α) (p : π) (v : β) (hp : path a = some p)
    (hf : f a = .ok (some v)) (hmiss : files p = .missing) (es : List (CacheEvent α π)) (hes : ∀ e ∈ es, Keeps path p e) (fate : Fate) (mode : CallType)
    (hm : mode = .loadOrCallCached ∨ mode = .loadOrCallUncached) :
    (callWith f path (runHistory f path es (callWith f path files .loadOrCallCached a .completes).files) mode a fate).outcome = .returned (some v) ∧
    (callWith f path (runHistory f path es (callWith f path files .loadOrCallCached a .completes).files) mode a fate).calls = 0 := by
  have h0 : callWith f path files .loadOrCallCached a .completes = ⟨.returned (some v), Function.update files p (.complete (some v)), 1⟩ := by
    simp [callWith, loadOrCallCached, loadCache, callCached, hp, hmiss, hf]
  rw [h0]
  have hk := file_kept f path p (.complete (some v)) (Or.inr ⟨v, rfl⟩) es hes _ (Function.update_self p _ files)
  simp only []
  rcases hm with rfl | rfl
  · simp [callWith, loadOrCallCached, loadCache, hp, hk]
  · simp [callWith, loadOrCallUncached, loadCache, hp, hk]

/-- **C77**: a function which returns `None` is called again every time, although the file exists. -/
theorem C77_none (f : α → Except ε (Option β)) (path : α → Option π) (files : π → CacheFile β) (a : α) (p : π) (hp : path a = some p) (hf : f a = .ok none)
    (hfile : files p = .complete none) (n : ℕ) :
    (callWith f path (runHistory f path (List.replicate n (.call .loadOrCallCached a .completes)) files) .loadOrCallCached a .completes).outcome =
      .returned none ∧
    (callWith f path (runHistory f path (List.replicate n (.call .loadOrCallCached a .completes)) files) .loadOrCallCached a .completes).calls = 1 := by
  have h : callWith f path files .loadOrCallCached a .completes = ⟨.returned none, files, 1⟩ := by
    have : callWith f path files .loadOrCallCached a .completes = ⟨.returned none, Function.update files p (.complete none), 1⟩ := by
      simp [callWith, loadOrCallCached, loadCache, callCached, hp, hfile, hf]
    rw [this, ← hfile, Function.update_eq_self]
  have hr : runHistory f path (List.replicate n (.call .loadOrCallCached a .completes)) files = files := by
    induction n with
    | zero => rfl
    | succ n ih => rw [List.replicate_succ, runHistory, h]; exact ih
  rw [hr, h]
  exact ⟨rfl, rfl⟩

/-- After the torn file is deleted the cache works again. -/
theorem C77_recovers (f : α → Except ε (Option β)) (path : α → Option π) (files : π → CacheFile β) (a : α) (p : π) (v : Option β) (hp : path a = some p) (hf : f a = .ok v) :
    (callWith f path (runHistory f path [.delete p] files) .loadOrCallCached a .completes).outcome = .returned v ∧
    (callWith f path files .callCached a .completes).outcome = .returned v ∧
    (callWith f path files .callCached a .completes).files p = .complete v := by
  refine ⟨?_, ?_, ?_⟩
  · simp [callWith, loadOrCallCached, loadCache, callCached, runHistory, hp, hf]
  · simp [callWith, callCached, hp, hf]
  · simp [callWith, callCached, hp, hf]

/-- A history with a crash, a deletion and a call with other arguments, for a path which depends on the argument. -/
example : (∀ v, (callWith (fun a : ℕ => (.ok (some (a + 1)) : Except Unit (Option ℕ))) (fun a => some a)
    (runHistory (fun a : ℕ => (.ok (some (a + 1)) : Except Unit (Option ℕ))) (fun a => some a)
      [.call .loadOrCallCached 1 .killedInside, .call .loadOrCallCached 2 .completes, .delete 1] fun _ => .missing) .loadOrCallCached 1 .completes).outcome =
      .returned v → (.ok (some 2) : Except Unit (Option ℕ)) = .ok v) :=
  (C77_history_partial _ _ (fun a b p ha hb => by cases ha; cases hb; rfl) _ _ _ _).1

/-- **C98** (for names which end in `.npy` and numeric results): in every sequence of calls a function decorated with `npy_cached` returns its value, as
an array, and it is called at most once for each path. -/
theorem C98_npy_partial {α β ε : Type} (f : α → Except ε β) (path : α → Option String) (hp : ∀ a b p, path a = some p → path b = some p → f a = f b)
    (hext : ∀ a p, path a = some p → p.endsWith ".npy" = true) (isObject : β → Bool) (hnum : ∀ a v, f a = .ok v → isObject v = false)
    (conv : β → β) (loadPickle savePickle : Bool) (as : List α) :
    ∀ i < as.length, ∀ (a : α), as[i]? = some a → ∃ o c, (npyRun f path isObject conv loadPickle savePickle as fun _ => .missing)[i]? = some (o, c) ∧
      (∀ e, f a = .error e → o = .raised e) ∧ (∀ v, f a = .ok v → o = .returned v ∨ o = .returned (conv v)) ∧
      ((∃ j < i, ∃ b v, as[j]? = some b ∧ path b = path a ∧ path a ≠ none ∧ f b = .ok v) → c = 0) := by
  suffices H : ∀ (as : List α) (files : String → NpyFile β),
      (∀ p, files p = .missing ∨ ∃ v, files p = .numeric (conv v) ∧ ∀ a, path a = some p → f a = .ok v) →
      ∀ i < as.length, ∀ (a : α), as[i]? = some a → ∃ o c, (npyRun f path isObject conv loadPickle savePickle as files)[i]? = some (o, c) ∧
      (∀ e, f a = .error e → o = .raised e) ∧ (∀ v, f a = .ok v → o = .returned v ∨ o = .returned (conv v)) ∧
      (((∃ j < i, ∃ b v, as[j]? = some b ∧ path b = path a ∧ path a ≠ none ∧ f b = .ok v) ∨ ∃ p, path a = some p ∧ files p ≠ .missing) → c = 0) by
    intro i hi a ha
    obtain ⟨o, c, h1, h2, h3, h4⟩ := H as (fun _ => .missing) (fun _ => Or.inl rfl) i hi a ha
    exact ⟨o, c, h1, h2, h3, fun h => h4 (Or.inl h)⟩
  intro as
  induction as with
  | nil => intro files _ i hi; simp at hi
  | cons b bs ih =>
    intro files hinv i hi a ha
    -- the first call
    have hstep : (∀ e, f b = .error e → (npyCall f path isObject conv loadPickle savePickle files b).1 = .raised e) ∧
        (∀ v, f b = .ok v → (npyCall f path isObject conv loadPickle savePickle files b).1 = .returned v ∨
          (npyCall f path isObject conv loadPickle savePickle files b).1 = .returned (conv v)) ∧
        ((∃ p, path b = some p ∧ files p ≠ .missing) → (npyCall f path isObject conv loadPickle savePickle files b).2.2 = 0) ∧
        (∀ p, (npyCall f path isObject conv loadPickle savePickle files b).2.1 p = .missing ∨
          ∃ v, (npyCall f path isObject conv loadPickle savePickle files b).2.1 p = .numeric (conv v) ∧ ∀ a, path a = some p → f a = .ok v) ∧
        (∀ p, path b = some p → (∃ v, f b = .ok v) → (npyCall f path isObject conv loadPickle savePickle files b).2.1 p ≠ .missing) ∧
        (∀ p, files p ≠ .missing → (npyCall f path isObject conv loadPickle savePickle files b).2.1 p ≠ .missing) := by
      unfold npyCall
      cases hpb : path b with
      | none =>
        cases hfb : f b with
        | error e => exact ⟨fun e' h => by (cases h; rfl), fun v h => by (cases h), by simp, hinv, by simp, fun p h => h⟩
        | ok v => exact ⟨fun e' h => by (cases h), fun v h => by (cases h; exact Or.inl rfl), by simp, hinv, by simp, fun p h => h⟩
      | some p =>
        rcases hinv p with hm | ⟨w, hw, hwa⟩
        · simp only [hm]
          cases hfb : f b with
          | error e =>
            refine ⟨fun e' h => by (cases h; rfl), fun v h => by (cases h), ?_, hinv, ?_, fun p h => h⟩
            · rintro ⟨q, hq, hqm⟩; cases hq; exact absurd hm hqm
            · rintro q - ⟨v, hv⟩; cases hv
          | ok v =>
            simp only [hnum b v hfb, hext b p hpb, if_true, Bool.false_eq_true, if_false]
            refine ⟨fun e' h => by (cases h), fun v h => by (cases h; exact Or.inl rfl), ?_, ?_, ?_, ?_⟩
            · rintro ⟨q, hq, hqm⟩; cases hq; exact absurd hm hqm
            · intro q
              by_cases hqp : q = p
              · subst hqp
                exact Or.inr ⟨v, Function.update_self _ _ _, fun a ha => by rw [hp a b q ha hpb, hfb]⟩
              · rw [Function.update_of_ne hqp]; exact hinv q
            · intro q hq _; cases hq; rw [Function.update_self]; simp
            · intro q hq
              by_cases hqp : q = p
              · subst hqp; exact absurd hm hq
              · rw [Function.update_of_ne hqp]; exact hq
        · simp only [hw]
          refine ⟨fun e h => ?_, fun v h => ?_, fun _ => by simp, hinv, ?_, fun q h => h⟩
          · rw [hwa b hpb] at h; cases h
          · rw [hwa b hpb] at h; cases h; exact Or.inr rfl
          · intro q hq _; cases hq; rw [hw]; simp
    obtain ⟨s1, s2, s3, s4, s5, s6⟩ := hstep
    cases i with
    | zero =>
      simp only [List.getElem?_cons_zero, Option.some.injEq] at ha
      subst ha
      refine ⟨_, _, rfl, s1, s2, ?_⟩
      rintro (⟨j, hj, -⟩ | h)
      · exact absurd hj (Nat.not_lt_zero j)
      · exact s3 h
    | succ i =>
      simp only [List.getElem?_cons_succ] at ha
      obtain ⟨o, c, h1, h2, h3, h4⟩ := ih _ s4 i (Nat.lt_of_succ_lt_succ hi) a ha
      refine ⟨o, c, h1, h2, h3, ?_⟩
      rintro (⟨j, hj, b', v, hb', hpath, hne, hv⟩ | ⟨p, hpa, hpm⟩)
      · cases j with
        | zero =>
          simp only [List.getElem?_cons_zero, Option.some.injEq] at hb'
          subst hb'
          obtain ⟨p, hpa⟩ := Option.ne_none_iff_exists'.1 hne
          exact h4 (Or.inr ⟨p, hpa, s5 p (hpath.trans hpa) ⟨v, hv⟩⟩)
        | succ j => exact h4 (Or.inl ⟨j, Nat.lt_of_succ_lt_succ hj, b', v, by simpa using hb', hpath, hne, hv⟩)
      · exact h4 (Or.inr ⟨p, hpa, s6 p hpm⟩)

/-- Two arguments with their own files, one of which raises. -/
example : ∃ (f : Bool → Except String ℕ) (path : Bool → Option String), (∀ a b p, path a = some p → path b = some p → f a = f b) ∧
    (∀ a p, path a = some p → p.endsWith ".npy" = true) ∧ f true = .ok 3 := by
  refine ⟨fun a => if a then .ok 3 else .error "bad", fun a => if a then some "a.npy" else some "b.npy", ?_, ?_, rfl⟩
  · intro a b p h1 h2
    cases a <;> cases b <;> simp_all
    all_goals (subst h1; simp at h2)
  · intro a p h
    cases a <;> simp at h <;> subst h <;> decide +kernel

/-- **C98** fails for a name without the extension: the saved file is never found, so that the function is called every time. -/
theorem C98_extension_negation : ∃ (path : ℕ → Option String), (npyRun (fun a : ℕ => (.ok a : Except Unit ℕ)) path (fun _ => false) id false true [5, 5, 5] fun _ => .missing).map (·.2) =
    [1, 1, 1] := ⟨fun _ => some "result", by
      have h : ("result".endsWith ".npy") = false := by decide +kernel
      simp [npyRun, npyCall, h]⟩

/-- **C98** fails for results which are not numeric arrays: with the default options the second call raises. -/
theorem C98_object_negation : ∃ (r1 r2 : NpyOutcome ℕ Unit × ℕ), npyRun (fun a : ℕ => (.ok a : Except Unit ℕ)) (fun _ => some "result.npy") (fun _ => true) id false true [5, 5] (fun _ => .missing) =
    [r1, r2] ∧ r1.1 = .returned 5 ∧ r2.1 = .valueError := by
  have h : ("result.npy".endsWith ".npy") = true := by decide +kernel
  exact ⟨(.returned 5, 1), (.valueError, 0), by simp [npyRun, npyCall, h], rfl, rfl⟩

end Verif
