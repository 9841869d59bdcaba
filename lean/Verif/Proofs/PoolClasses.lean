import Verif.Spec.PoolClasses
import Verif.Props.Classes
import Verif.Proofs.Pool

/-!
# Lemmas about threads using a partition at the same time
-/

namespace Cru.PoolClasses

open Cru.Pool Relation

variable {k : Nat} {U : Type}

/-- What a thread does to memory while nobody else does anything, up to some point; with `w = false`, it doesn't store anything. -/
inductive Runs (w : Bool) : Thread k → (Fin k → Option (Fin k)) → Thread k → (Fin k → Option (Fin k)) → Prop
  | refl {c m} : Runs w c m c m
  | load {a K m c' m'} : Runs w (K (m a)) m c' m' → Runs w (.load a K) m c' m'
  | store {a x K m c' m'} : w = true → Runs w K (put m a x) c' m' → Runs w (.store a x K) m c' m'

theorem Runs.trans {w : Bool} {c c' c'' : Thread k} {m m' m'' : Fin k → Option (Fin k)} (h : Runs w c m c' m') (h' : Runs w c' m' c'' m'') :
    Runs w c m c'' m'' := by
  induction h with
  | refl => exact h'
  | load _ ih => exact .load (ih h')
  | store hw _ ih => exact .store hw (ih h')

theorem runs_unlock {w : Bool} {K K' : Thread k} {m m' : Fin k → Option (Fin k)} (h : Runs w (.unlock () K) m (.unlock () K') m') :
    K = K' ∧ m = m' := by
  generalize hc : Code.unlock () K = c at h
  generalize hc' : Code.unlock () K' = c' at h
  cases h with
  | refl => rw [← hc'] at hc; cases hc; exact ⟨rfl, rfl⟩
  | load => cases hc
  | store => cases hc

theorem runs_climb {p : Classes.Part k} {K : Fin k → Thread k} {r : Fin k} : ∀ fuel i, Classes.climb p fuel i = some r →
    Runs false (climb fuel i K) p.sup (K r) p.sup := by
  intro fuel
  induction fuel with
  | zero => intro i h; cases h
  | succ fuel ih =>
    intro i h
    unfold Classes.climb at h
    refine .load ?_
    cases hs : p.sup i with
    | none => rw [hs] at h; cases h; exact .refl
    | some s => rw [hs] at h; exact ih s h

theorem runs_weigh {p : Classes.Part k} {K : Fin k → Nat → Thread k} {r : Fin k} {ys : Nat} : ∀ fuel x xs,
    Classes.weigh p fuel x xs = some (r, ys) → Runs true (weigh p.refs fuel x xs K) p.sup (K r ys) p.sup := by
  intro fuel
  induction fuel with
  | zero => intro x xs h; cases h
  | succ fuel ih =>
    intro x xs h
    unfold Classes.weigh at h
    refine .load ?_
    cases hs : p.sup x with
    | none => rw [hs] at h; cases h; exact .refl
    | some s => rw [hs] at h; exact ih s _ h

theorem put_update (m : Fin k → Option (Fin k)) (a : Fin k) (x : Option (Fin k)) : put m a x = Function.update m a x := by
  funext b
  by_cases h : b = a
  · subst h; rw [put_same, Function.update_self]
  · rw [put_other _ _ h, Function.update_of_ne h]

theorem runs_redirect {K : Thread k} {y : Fin k} {q : Classes.Part k} : ∀ fuel xl (p : Classes.Part k),
    Classes.redirect y fuel xl p = some q → Runs true (redirect y fuel xl K) p.sup K q.sup := by
  intro fuel
  induction fuel with
  | zero => intro x p h; cases h
  | succ fuel ih =>
    intro x p h
    unfold Classes.redirect at h
    refine .load ?_
    cases hs : p.sup x with
    | none => rw [hs] at h; cases h; exact .refl
    | some s =>
      rw [hs] at h
      refine .store rfl ?_
      rw [put_update]
      exact ih s _ h

/-- What's done by `cru_united` with the lock acquired. -/
theorem runs_united {p q : Classes.Part k} {xl yl : Fin k} (h : Classes.united p xl yl = some q) (K : Thread k) :
    ∃ b, united p.refs xl yl K = .wrlock () b ∧ Runs true b p.sup (.unlock () K) q.sup := by
  refine ⟨_, rfl, ?_⟩
  unfold Classes.united at h
  obtain ⟨⟨x, xs⟩, h1, h⟩ := Option.bind_eq_some_iff.1 h
  obtain ⟨⟨y, ys⟩, h2, h⟩ := Option.bind_eq_some_iff.1 h
  refine (runs_weigh _ _ _ h1).trans ((runs_weigh _ _ _ h2).trans ?_)
  dsimp only at h
  by_cases hxy : x = y
  · rw [if_pos hxy] at h ⊢
    cases h
    exact .refl
  · rw [if_neg hxy] at h ⊢
    by_cases hlt : xs < ys
    · rw [if_pos hlt] at h ⊢
      obtain ⟨r, h3, h⟩ := Option.bind_eq_some_iff.1 h
      cases h
      refine (runs_redirect _ _ _ h3).trans (.store rfl ?_)
      rw [put_update]
      exact .refl
    · rw [if_neg hlt] at h ⊢
      obtain ⟨r, h3, h⟩ := Option.bind_eq_some_iff.1 h
      cases h
      refine (runs_redirect _ _ _ h3).trans (.store rfl ?_)
      rw [put_update]
      exact .refl

variable {cls : U → Fin k}

theorem replay_append (h h' : List (Event k U)) (p : Classes.Part k) :
    replay cls (h ++ h') p = (replay cls h p).bind (replay cls h') := by
  induction h generalizing p with
  | nil => rfl
  | cons e h ih =>
    cases e with
    | asked t v c =>
      show (if _ then replay cls (h ++ h') p else none) = Option.bind (if _ then replay cls h p else none) (replay cls h')
      by_cases hc : Classes.classOf p (cls v) = some c
      · rw [if_pos hc, if_pos hc]; exact ih p
      · rw [if_neg hc, if_neg hc]; rfl
    | joined t x y =>
      show (Classes.united p x y).bind (replay cls (h ++ h')) = ((Classes.united p x y).bind (replay cls h)).bind (replay cls h')
      cases hq : Classes.united p x y with
      | none => rfl
      | some q => exact ih q

theorem does_asked {t : Nat} {p : Prog k U} {h : List (Event k U)} {v : U} {next : Fin k → Prog k U} (c : Fin k)
    (hd : Does t p h (.classOf v next)) : Does t p (h ++ [.asked t v c]) (next c) := by
  generalize hq : Prog.classOf v next = q at hd
  induction hd with
  | nothing => subst hq; exact .asked .nothing
  | asked _ ih => exact .asked (ih hq)
  | joined _ ih => exact .joined (ih hq)

theorem does_joined {t : Nat} {p : Prog k U} {h : List (Event k U)} {x y : Fin k} {next : Prog k U}
    (hd : Does t p h (.united x y next)) : Does t p (h ++ [.joined t x y]) next := by
  generalize hq : Prog.united x y next = q at hd
  induction hd with
  | nothing => subst hq; exact .joined .nothing
  | asked _ ih => exact .asked (ih hq)
  | joined _ ih => exact .joined (ih hq)

/-- What holds at any time, where `γ` says what each thread still has to do, `h` are the calls made, and `q` is the partition that they've
led to. -/
structure Whole (cls : U → Fin k) (progs : List (Prog k U)) (p₀ : Classes.Part k) (γ : Nat → Prog k U) (h : List (Event k U))
    (q : Classes.Part k) (s : State (Fin k) (Option (Fin k)) Unit) : Prop where
  replay : replay cls h p₀ = some q
  ranked : Classes.Ranked q
  refs : q.refs = p₀.refs
  does : ∀ t pr, progs[t]? = some pr → Does t pr (callsOf t h) (γ t)
  made : ∀ e ∈ h, e.thread < progs.length
  length : s.threads.length = progs.length
  mem : s.writer () = none → s.mem = q.sup
  writer : ∀ t, s.writer () = some t → s.readers () = [] ∧ ∃ x y next q' c b, γ t = .united x y next ∧ Classes.united q x y = some q' ∧
    s.threads[t]? = some c ∧ Runs true c s.mem (.unlock () (compile cls p₀.refs next)) q'.sup ∧ compile cls p₀.refs (γ t) = .wrlock () b ∧ Amid b c
  reader : ∀ t ∈ s.readers (), ∃ v next r c b, γ t = .classOf v next ∧ Classes.classOf q (cls v) = some r ∧ s.threads[t]? = some c ∧
    Runs false c q.sup (.unlock () (compile cls p₀.refs (next r))) q.sup ∧ compile cls p₀.refs (γ t) = .rdlock () b ∧ Amid b c
  idle : ∀ t c, s.threads[t]? = some c → s.writer () ≠ some t → t ∉ s.readers () → c = compile cls p₀.refs (γ t)
  nodup : (s.readers ()).Nodup

variable {progs : List (Prog k U)} {p₀ : Classes.Part k} {γ : Nat → Prog k U} {h : List (Event k U)} {q : Classes.Part k}
  {s s' : State (Fin k) (Option (Fin k)) Unit}

theorem united_some (hr : Classes.Ranked q) (x y : Fin k) : ∃ q', Classes.united q x y = some q' ∧ Classes.Ranked q' ∧ q'.refs = q.refs := by
  obtain ⟨r, h1⟩ := Classes.root_exists hr x
  obtain ⟨r', h2⟩ := Classes.root_exists hr y
  obtain ⟨q', h3, h4, h5, -⟩ := Classes.united_root hr x y h1 h2
  exact ⟨q', h3, h4, h5⟩

theorem classOf_some (hr : Classes.Ranked q) (x : Fin k) : ∃ r, Classes.classOf q x = some r := by
  obtain ⟨r, h1⟩ := Classes.root_exists hr x
  exact ⟨r, Classes.classOf_root hr h1⟩

theorem callsOf_append (t : Nat) (h : List (Event k U)) (e : Event k U) :
    callsOf t (h ++ [e]) = if e.thread = t then callsOf t h ++ [e] else callsOf t h := by
  unfold callsOf
  rw [List.filter_append]
  by_cases he : e.thread = t
  · simp [he]
  · simp [he]

theorem step_whole (hw : Whole cls progs p₀ γ h q s) {t : Nat} (hs : step t s = some s') :
    ∃ γ' h' q', Whole cls progs p₀ γ' (h ++ h') q' s' := by
  have more : ∀ e : Event k U, e.thread = t → ∀ e' ∈ h ++ [e], e'.thread < progs.length := by
    intro e he e' he'
    rcases List.mem_append.1 he' with he' | he'
    · exact hw.made e' he'
    · rw [List.mem_singleton.1 he', he, ← hw.length]
      by_contra hlt
      unfold step at hs
      rw [List.getElem?_eq_none (Nat.le_of_not_lt hlt)] at hs
      cases hs
  have hsame : ∀ c : Thread k, ∀ {d}, s.threads[t]? = some d → (s.threads.set t c)[t]? = some c := fun c d hd => set_same (lt_of_get hd)
  by_cases hwr : s.writer () = some t
  · -- the writer
    obtain ⟨hrd, x, y, next, q', c, b, h1, h2, h3, h4, h5, h6⟩ := hw.writer t hwr
    have only : ∀ u, s.writer () = some u → u = t := fun u hu => by rw [hwr] at hu; exact (Option.some.inj hu).symm
    rcases step_cases hs with ⟨a, K, hc, rfl⟩ | ⟨a, x', K, hc, rfl⟩ | ⟨l, K, hc, hl, rfl⟩ | ⟨l, K, hc, hl, -, rfl⟩ | ⟨l, K, hc, hl, rfl⟩ |
      ⟨l, K, hc, hl, -, rfl⟩ | ⟨d, K, hc, rfl⟩ | ⟨u, K, hc, -, rfl⟩ <;> rw [h3] at hc <;> cases hc
    · refine ⟨γ, [], q, by rw [List.append_nil]; exact hw.replay, hw.ranked, hw.refs, by rw [List.append_nil]; exact hw.does,
        by rw [List.append_nil]; exact hw.made, by simpa using hw.length, hw.mem, fun u hu => ?_, fun u hu => ?_, fun u c hc hu hu' => ?_, hw.nodup⟩
      · obtain rfl := only u hu
        refine ⟨hrd, x, y, next, q', _, b, h1, h2, hsame _ h3, ?_, h5, .load h6⟩
        cases h4 with | load h4 => exact h4
      · dsimp only at hu; rw [hrd] at hu; cases hu
      · have hne : u ≠ t := by rintro rfl; exact hu hwr
        rw [set_other hne] at hc
        exact hw.idle u c hc hu hu'
    · refine ⟨γ, [], q, by rw [List.append_nil]; exact hw.replay, hw.ranked, hw.refs, by rw [List.append_nil]; exact hw.does,
        by rw [List.append_nil]; exact hw.made, by simpa using hw.length, fun hn => ?_, fun u hu => ?_, fun u hu => ?_, fun u c hc hu hu' => ?_, hw.nodup⟩
      · dsimp only at hn; rw [hwr] at hn; cases hn
      · obtain rfl := only u hu
        refine ⟨hrd, x, y, next, q', _, b, h1, h2, hsame _ h3, ?_, h5, .store h6⟩
        cases h4 with | store _ h4 => exact h4
      · dsimp only at hu; rw [hrd] at hu; cases hu
      · have hne : u ≠ t := by rintro rfl; exact hu hwr
        rw [set_other hne] at hc
        exact hw.idle u c hc hu hu'
    · cases h4
    · cases h4
    · obtain ⟨rfl, hq'⟩ := runs_unlock h4
      have hrk : Classes.Ranked q' ∧ q'.refs = q.refs := by
        obtain ⟨q'', h7, h8, h9⟩ := united_some hw.ranked x y
        rw [h2] at h7; cases h7; exact ⟨h8, h9⟩
      refine ⟨Function.update γ t next, [.joined t x y], q', ?_, hrk.1, hrk.2.trans hw.refs, fun u pr hu => ?_, more _ rfl, by simpa using hw.length,
        fun _ => hq', fun u hu => ?_, fun u hu => ?_, fun u c hc hu hu' => ?_, hw.nodup⟩
      · rw [replay_append, hw.replay]
        simp only [Option.bind_some, PoolClasses.replay, h2]
      · have hd := hw.does u pr hu
        rw [callsOf_append]
        by_cases hne : u = t
        · subst hne
          rw [if_pos (by rfl), Function.update_self]
          rw [h1] at hd
          exact does_joined hd
        · rw [if_neg (by simpa [Event.thread] using Ne.symm hne), Function.update_of_ne hne]
          exact hd
      · dsimp only at hu; rw [put_same] at hu; cases hu
      · dsimp only at hu; rw [hrd] at hu; cases hu
      · by_cases hne : u = t
        · subst hne
          rw [hsame _ h3] at hc
          cases hc
          rw [Function.update_self]
        · rw [set_other hne] at hc
          rw [Function.update_of_ne hne]
          refine hw.idle u c hc ?_ hu'
          rw [hwr]
          exact fun e => hne (Option.some.inj e).symm
    · exact absurd hwr hl
    · cases h4
    · cases h4
  · by_cases hrd : t ∈ s.readers ()
    · -- a reader
      obtain ⟨v, next, r, c, b, h1, h2, h3, h4, h5, h6⟩ := hw.reader t hrd
      have hno : s.writer () = none := by
        cases hn : s.writer () with
        | none => rfl
        | some u =>
          rw [(hw.writer u hn).1] at hrd; cases hrd
      rcases step_cases hs with ⟨a, K, hc, rfl⟩ | ⟨a, x', K, hc, rfl⟩ | ⟨l, K, hc, hl, rfl⟩ | ⟨l, K, hc, hl, -, rfl⟩ | ⟨l, K, hc, hl, rfl⟩ |
        ⟨l, K, hc, hl, -, rfl⟩ | ⟨d, K, hc, rfl⟩ | ⟨u, K, hc, -, rfl⟩ <;> rw [h3] at hc <;> cases hc
      · refine ⟨γ, [], q, by rw [List.append_nil]; exact hw.replay, hw.ranked, hw.refs, by rw [List.append_nil]; exact hw.does,
          by rw [List.append_nil]; exact hw.made, by simpa using hw.length, hw.mem, fun u hu => ?_, fun u hu => ?_, fun u c hc hu hu' => ?_, hw.nodup⟩
        · dsimp only at hu; rw [hno] at hu; cases hu
        · by_cases hne : u = t
          · subst hne
            refine ⟨v, next, r, _, b, h1, h2, hsame _ h3, ?_, h5, .load h6⟩
            rw [hw.mem hno]
            cases h4 with | load h4 => exact h4
          · dsimp only
            rw [set_other hne]
            exact hw.reader u hu
        · have hne : u ≠ t := by rintro rfl; exact hu' hrd
          rw [set_other hne] at hc
          exact hw.idle u c hc hu hu'
      · cases h4 with | store hf _ => cases hf
      · cases h4
      · cases h4
      · exact absurd hl hwr
      · obtain ⟨rfl, -⟩ := runs_unlock h4
        have hmem : ∀ u, u ∈ (s.readers ()).erase t ↔ u ≠ t ∧ u ∈ s.readers () := fun u => hw.nodup.mem_erase_iff
        refine ⟨Function.update γ t (next r), [.asked t v r], q, ?_, hw.ranked, hw.refs, fun u pr hu => ?_, more _ rfl, by simpa using hw.length,
          hw.mem, fun u hu => ?_, fun u hu => ?_, fun u c hc hu hu' => ?_, ?_⟩
        · rw [replay_append, hw.replay]
          simp only [Option.bind_some, PoolClasses.replay, h2, if_true]
        · have hd := hw.does u pr hu
          rw [callsOf_append]
          by_cases hne : u = t
          · subst hne
            rw [if_pos (by rfl), Function.update_self]
            rw [h1] at hd
            exact does_asked r hd
          · rw [if_neg (by simpa [Event.thread] using Ne.symm hne), Function.update_of_ne hne]
            exact hd
        · dsimp only at hu; rw [hno] at hu; cases hu
        · dsimp only at hu
          rw [put_same, hmem] at hu
          rw [set_other hu.1, Function.update_of_ne hu.1]
          exact hw.reader u hu.2
        · by_cases hne : u = t
          · subst hne
            rw [hsame _ h3] at hc
            cases hc
            rw [Function.update_self]
          · rw [set_other hne] at hc
            rw [Function.update_of_ne hne]
            refine hw.idle u c hc hu ?_
            dsimp only at hu'
            rw [put_same, hmem] at hu'
            exact fun hm => hu' ⟨hne, hm⟩
        · dsimp only
          rw [put_same]
          exact hw.nodup.erase t
      · cases h4
      · cases h4
    · -- a thread between calls
      have hany : ∀ c, s.threads[t]? = some c → c = compile cls p₀.refs (γ t) := fun c hc => hw.idle t c hc hwr hrd
      have next : ∃ c, s.threads[t]? = some c := by
        cases hc : s.threads[t]? with
        | none => unfold step at hs; rw [hc] at hs; cases hs
        | some c => exact ⟨c, rfl⟩
      obtain ⟨c, hc⟩ := next
      have hcc := hany c hc
      subst hcc
      cases hg : γ t with
      | done =>
        rw [hg] at hc
        unfold step at hs; rw [hc] at hs; cases hs
      | classOf v nx =>
        rw [hg] at hc
        have hc : s.threads[t]? = some (.rdlock () (climb (k + 1) (cls v) fun r => .unlock () (compile cls p₀.refs (nx r)))) := hc
        unfold step at hs
        rw [hc] at hs
        dsimp only at hs
        by_cases hno : s.writer () = none
        · rw [if_pos hno] at hs
          cases hs
          obtain ⟨r, hr⟩ := classOf_some hw.ranked (cls v)
          refine ⟨γ, [], q, by rw [List.append_nil]; exact hw.replay, hw.ranked, hw.refs, by rw [List.append_nil]; exact hw.does,
            by rw [List.append_nil]; exact hw.made, by simpa using hw.length, hw.mem, fun u hu => ?_, fun u hu => ?_, fun u c hc hu hu' => ?_, ?_⟩
          · dsimp only at hu; rw [hno] at hu; cases hu
          · dsimp only at hu
            rw [put_same] at hu
            by_cases hne : u = t
            · subst hne
              refine ⟨v, nx, r, _, _, hg, hr, hsame _ hc, runs_climb _ _ hr, ?_, .begin⟩
              rw [hg]
              rfl
            · dsimp only
              rw [set_other hne]
              exact hw.reader u ((List.mem_cons.1 hu).resolve_left hne)
          · dsimp only at hu'
            rw [put_same] at hu'
            have hne : u ≠ t := by rintro rfl; exact hu' List.mem_cons_self
            rw [set_other hne] at hc
            exact hw.idle u c hc hu fun hm => hu' (List.mem_cons_of_mem _ hm)
          · dsimp only
            rw [put_same]
            exact List.nodup_cons.2 ⟨hrd, hw.nodup⟩
        · rw [if_neg hno] at hs; cases hs
      | united x y nx =>
        obtain ⟨q', hq', -⟩ := united_some hw.ranked x y
        obtain ⟨b, hb, hrun⟩ := runs_united hq' (compile cls p₀.refs nx)
        rw [hg] at hc
        rw [hw.refs] at hb
        have hcomp : compile cls p₀.refs (.united x y nx) = .wrlock () b := hb
        rw [hcomp] at hc
        unfold step at hs
        rw [hc] at hs
        dsimp only at hs
        by_cases hno : s.writer () = none ∧ s.readers () = []
        · rw [if_pos hno] at hs
          cases hs
          refine ⟨γ, [], q, by rw [List.append_nil]; exact hw.replay, hw.ranked, hw.refs, by rw [List.append_nil]; exact hw.does,
            by rw [List.append_nil]; exact hw.made, by simpa using hw.length, fun hn => ?_, fun u hu => ?_, fun u hu => ?_, fun u c hc hu hu' => ?_, hw.nodup⟩
          · dsimp only at hn; rw [put_same] at hn; cases hn
          · dsimp only at hu
            rw [put_same] at hu
            obtain rfl := Option.some.inj hu
            refine ⟨hno.2, x, y, nx, q', _, b, hg, hq', hsame _ hc, ?_, by rw [hg]; exact hcomp, .begin⟩
            dsimp only
            rw [hw.mem hno.1]
            exact hrun
          · dsimp only at hu; rw [hno.2] at hu; cases hu
          · dsimp only at hu
            rw [put_same] at hu
            have hne : u ≠ t := by rintro rfl; exact hu rfl
            rw [set_other hne] at hc
            exact hw.idle u c hc (by rw [hno.1]; simp) hu'
        · rw [if_neg hno] at hs; cases hs

theorem whole_start (progs : List (Prog k U)) (hp : ∀ c, p₀.sup c = none) :
    ∃ γ, Whole cls progs p₀ γ [] p₀ (start cls progs p₀) := by
  refine ⟨fun t => progs[t]?.getD .done, rfl, ⟨fun _ => 0, fun a b hab => ?_⟩, rfl, fun t pr ht => ?_, by simp, by simp [start, Pool.init], fun _ => rfl,
    fun t ht => ?_, fun t ht => ?_, fun t c hc _ _ => ?_, List.nodup_nil⟩
  · rw [Classes.Up, hp a] at hab; cases hab
  · rw [ht]
    exact .nothing
  · cases ht
  · cases ht
  · simp only [start, Pool.init, List.getElem?_map, Option.map_eq_some_iff] at hc
    obtain ⟨pr, h1, rfl⟩ := hc
    rw [h1]
    rfl

theorem reach_whole (hw : Whole cls progs p₀ γ h q s) (hr : Reach s s') : ∃ γ' h' q', Whole cls progs p₀ γ' (h ++ h') q' s' := by
  induction hr with
  | init => exact ⟨γ, [], q, by rw [List.append_nil]; exact hw⟩
  | step t _ hs ih =>
    obtain ⟨γ', h', q', hw'⟩ := ih
    obtain ⟨γ'', h'', q'', hw''⟩ := step_whole hw' hs
    exact ⟨γ'', h' ++ h'', q'', by rw [← List.append_assoc]; exact hw''⟩

theorem whole_explains (hw : Whole cls progs p₀ γ h q s) : Explains cls progs p₀ s h := by
  refine ⟨⟨q, hw.replay⟩, hw.made, fun t pr ht => ?_⟩
  have hlt : t < s.threads.length := by rw [hw.length]; exact (List.getElem?_eq_some_iff.1 ht).1
  obtain ⟨c, hc⟩ : ∃ c, s.threads[t]? = some c := ⟨_, List.getElem?_eq_getElem hlt⟩
  refine ⟨γ t, c, hw.does t pr ht, hc, ?_⟩
  by_cases hwr : s.writer () = some t
  · obtain ⟨-, x, y, next, q', c', b, -, -, h3, -, h5, h6⟩ := hw.writer t hwr
    rw [hc] at h3; cases h3
    exact .inr ⟨b, .inr h5, h6⟩
  · by_cases hrd : t ∈ s.readers ()
    · obtain ⟨v, next, r, c', b, -, -, h3, -, h5, h6⟩ := hw.reader t hrd
      rw [hc] at h3; cases h3
      exact .inr ⟨b, .inl h5, h6⟩
    · exact .inl (hw.idle t c hc hwr hrd)

/-- A thread that's about to access memory has the lock, and if it's to store something it has it for writing. -/
theorem access_locked (hw : Whole cls progs p₀ γ h q s) {t : Nat} {c : Thread k} {a : Fin k} {w : Bool} (hc : s.threads[t]? = some c)
    (ha : c.Accesses a w) : s.writer () = some t ∨ (w = false ∧ t ∈ s.readers ()) := by
  by_cases hwr : s.writer () = some t
  · exact .inl hwr
  · by_cases hrd : t ∈ s.readers ()
    · obtain ⟨v, next, r, c', b, -, -, h3, h4, -⟩ := hw.reader t hrd
      rw [hc] at h3; cases h3
      cases h4 with
      | refl => cases ha
      | load => exact .inr ⟨ha.2, hrd⟩
      | store hf => cases hf
    · have := hw.idle t c hc hwr hrd
      subst this
      cases hg : γ t <;> rw [hg] at ha <;> cases ha

theorem no_race (hw : Whole cls progs p₀ γ h q s) : ¬ Race s := by
  rintro ⟨t, u, c, d, a, w, htu, hc, hd, h1, h2⟩
  have ht : s.writer () = some t := by
    rcases access_locked hw hc h1 with h | ⟨h, -⟩
    · exact h
    · cases h
  rcases access_locked hw hd h2 with h | ⟨-, h⟩
  · rw [ht] at h; exact htu (Option.some.inj h)
  · rw [(hw.writer t ht).1] at h; cases h

theorem runs_steps {w : Bool} {c : Thread k} {m m' : Fin k → Option (Fin k)} {K : Thread k} (hr : Runs w c m (.unlock () K) m') {t : Nat}
    (hc : s.threads[t]? = some c) (hl : s.writer () = some t ∨ t ∈ s.readers ()) : step t s ≠ none := by
  generalize hu : Code.unlock () K = c' at hr
  cases hr with
  | refl =>
    subst hu
    unfold step
    rw [hc]
    simp only
    by_cases hw : s.writer () = some t
    · rw [if_pos hw]; simp
    · rw [if_neg hw, if_pos (hl.resolve_left hw)]; simp
  | load => unfold step; rw [hc]; simp
  | store => unfold step; rw [hc]; simp

theorem stuck_done (hw : Whole cls progs p₀ γ h q s) (hn : ∀ t, step t s = none) :
    Ended s ∧ s.mem = q.sup ∧ ∀ t pr, progs[t]? = some pr → γ t = .done := by
  have hno : s.writer () = none := by
    cases ht : s.writer () with
    | none => rfl
    | some t =>
      obtain ⟨-, x, y, next, q', c, b, -, -, h3, h4, -⟩ := hw.writer t ht
      exact absurd (hn t) (runs_steps h4 h3 (.inl ht))
  have hnr : s.readers () = [] := by
    cases hr : s.readers () with
    | nil => rfl
    | cons t ts =>
      have hm : t ∈ s.readers () := by rw [hr]; exact List.mem_cons_self
      obtain ⟨v, next, r, c, b, -, -, h3, h4, -⟩ := hw.reader t hm
      exact absurd (hn t) (runs_steps h4 h3 (.inr hm))
  have hγ : ∀ t c, s.threads[t]? = some c → γ t = .done ∧ c = .done := by
    intro t c hc
    have hcc := hw.idle t c hc (by rw [hno]; simp) (by rw [hnr]; simp)
    have h1 := hn t
    cases hg : γ t with
    | done => rw [hg] at hcc; exact ⟨rfl, hcc⟩
    | classOf v nx =>
      rw [hg] at hcc
      subst hcc
      unfold step at h1
      rw [hc] at h1
      simp only [compile, classOf] at h1
      rw [if_pos hno] at h1; cases h1
    | united x y nx =>
      rw [hg] at hcc
      subst hcc
      unfold step at h1
      rw [hc] at h1
      simp only [compile, united] at h1
      rw [if_pos ⟨hno, hnr⟩] at h1; cases h1
  refine ⟨fun c hc => ?_, hw.mem hno, fun t pr ht => ?_⟩
  · obtain ⟨t, ht⟩ := List.getElem?_of_mem hc
    exact (hγ t c ht).2
  · have hlt : t < s.threads.length := by rw [hw.length]; exact (List.getElem?_eq_some_iff.1 ht).1
    exact (hγ t _ (List.getElem?_eq_getElem hlt)).1

/-- What some calls lead to. -/
theorem replay_together {p : Classes.Part k} (hp : ∀ c, p.sup c = none) (h : List (Event k U)) (hr : replay cls h p = some q) :
    Classes.Ranked q ∧ (∀ c d, Classes.Together q c d ↔ EqvGen (Joined h) c d) ∧ ∀ t v c, .asked t v c ∈ h → Classes.Together q (cls v) c := by
  induction h using List.reverseRecOn generalizing q with
  | nil =>
    cases hr
    have hroot : ∀ c, Classes.Root p c c := fun c => ⟨.refl, hp c⟩
    refine ⟨⟨fun _ => 0, fun a b hab => by rw [Classes.Up, hp a] at hab; cases hab⟩, fun c d => ⟨?_, fun he => ?_⟩, fun t v c hm => by cases hm⟩
    · rintro ⟨r, h1, h2⟩
      rw [(hroot c).unique h1, (hroot d).unique h2]
      exact .refl _
    · induction he with
      | rel x y h => obtain ⟨t, ht⟩ := h; cases ht
      | refl x => exact ⟨x, hroot x, hroot x⟩
      | symm x y _ ih => obtain ⟨r, h1, h2⟩ := ih; exact ⟨r, h2, h1⟩
      | trans x y z _ _ ih1 ih2 =>
        obtain ⟨r, h1, h2⟩ := ih1
        obtain ⟨r', h3, h4⟩ := ih2
        exact ⟨r, h1, h2.unique h3 ▸ h4⟩
  | append_singleton h e ih =>
    rw [replay_append] at hr
    obtain ⟨q₁, hr1, hr2⟩ := Option.bind_eq_some_iff.1 hr
    obtain ⟨i1, i2, i3⟩ := ih hr1
    cases e with
    | asked t v c =>
      unfold replay at hr2
      by_cases hc : Classes.classOf q₁ (cls v) = some c
      · rw [if_pos hc] at hr2
        cases hr2
        have hj : Joined (h ++ [Event.asked t v c]) = Joined h := by
          funext x y
          simp [Joined]
        refine ⟨i1, by rw [hj]; exact i2, fun t' v' c' hm => ?_⟩
        rcases List.mem_append.1 hm with hm | hm
        · exact i3 t' v' c' hm
        · rw [List.mem_singleton] at hm
          cases hm
          obtain ⟨r, hr⟩ := Classes.root_exists i1 (cls v)
          rw [Classes.classOf_root i1 hr] at hc
          cases hc
          exact ⟨c, hr, .refl, hr.2⟩
      · rw [if_neg hc] at hr2; cases hr2
    | joined t x y =>
      unfold replay at hr2
      obtain ⟨q₂, hq, hr3⟩ := Option.bind_eq_some_iff.1 hr2
      cases hr3
      obtain ⟨rx, hx⟩ := Classes.root_exists i1 x
      obtain ⟨ry, hy⟩ := Classes.root_exists i1 y
      obtain ⟨q', h1, h2, -, f, h4, h5⟩ := Classes.united_root i1 x y hx hy
      rw [hq] at h1
      cases h1
      have key : ∀ c d r s, Classes.Root q₁ c r → Classes.Root q₁ d s →
          (Classes.Together q c d ↔ r = s ∨ (r = rx ∧ s = ry) ∨ (r = ry ∧ s = rx)) := by
        intro c d r s hc hd
        rw [← h5 r s hc.2 hd.2]
        constructor
        · rintro ⟨t, h1, h2⟩; rw [(h4 c r hc).unique h1, (h4 d s hd).unique h2]
        · intro he; exact ⟨f r, h4 c r hc, he ▸ h4 d s hd⟩
      have keep : ∀ c d, Classes.Together q₁ c d → Classes.Together q c d := by
        rintro c d ⟨r, hc, hd⟩
        exact (key c d r r hc hd).2 (.inl rfl)
      have mono : ∀ c d, EqvGen (Joined h) c d → EqvGen (Joined (h ++ [Event.joined t x y])) c d := by
        intro c d hd
        exact hd.mono fun a b ⟨u, hu⟩ => ⟨u, List.mem_append_left _ hu⟩
      have hxy : EqvGen (Joined (h ++ [Event.joined t x y])) x y := .rel _ _ ⟨t, by simp⟩
      refine ⟨h2, fun c d => ⟨fun ht => ?_, fun he => ?_⟩, fun t' v' c' hm => ?_⟩
      · obtain ⟨r, hc⟩ := Classes.root_exists i1 c
        obtain ⟨s, hd⟩ := Classes.root_exists i1 d
        rcases (key c d r s hc hd).1 ht with rfl | ⟨rfl, rfl⟩ | ⟨rfl, rfl⟩
        · exact mono _ _ ((i2 c d).1 ⟨r, hc, hd⟩)
        · exact .trans _ _ _ (mono _ _ ((i2 c x).1 ⟨_, hc, hx⟩)) (.trans _ _ _ hxy (mono _ _ ((i2 y d).1 ⟨_, hy, hd⟩)))
        · exact .trans _ _ _ (mono _ _ ((i2 c y).1 ⟨_, hc, hy⟩)) (.trans _ _ _ (.symm _ _ hxy) (mono _ _ ((i2 x d).1 ⟨_, hx, hd⟩)))
      · induction he with
        | rel a b hab =>
          obtain ⟨u, hu⟩ := hab
          rcases List.mem_append.1 hu with hu | hu
          · exact keep _ _ ((i2 a b).2 (.rel _ _ ⟨u, hu⟩))
          · rw [List.mem_singleton] at hu
            cases hu
            exact (key _ _ _ _ hx hy).2 (.inr (.inl ⟨rfl, rfl⟩))
        | refl a => obtain ⟨r, hr⟩ := Classes.root_exists h2 a; exact ⟨r, hr, hr⟩
        | symm a b _ ih => obtain ⟨r, h1, h2⟩ := ih; exact ⟨r, h2, h1⟩
        | trans a b c _ _ ih1 ih2 =>
          obtain ⟨r, h1, h2⟩ := ih1
          obtain ⟨s, h3, h4⟩ := ih2
          exact ⟨r, h1, (h2.unique h3) ▸ h4⟩
      · rcases List.mem_append.1 hm with hm | hm
        · exact keep _ _ (i3 t' v' c' hm)
        · simp at hm

end Cru.PoolClasses
