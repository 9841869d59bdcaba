import Verif.Proofs.StretchOver

/-! # Invariants of stretching with packets in flight -/

namespace Cru.Stretch

open Net Dedup

variable {n : Nat} {N V L : Type} [DecidableEq N] [DecidableEq V] [DecidableEq L]
variable {o : Orders V L} {ask : N → L × N → Answer V L} {g : Gr N V L} {addr : Nd N V L → Nat} {limit : Nat} {hn : 0 < n}

omit [DecidableEq N] [DecidableEq V] [DecidableEq L] in
theorem mem_bin {M : Mem n N V L} {m c : Nd N V L} :
    c ∈ bin o g M.tab (ln o g hn m) m ↔ St o g hn M c ∧ o.hash (vertex g c) = o.hash (vertex g m) := by
  unfold bin St Ent
  simp only [List.mem_map, List.mem_filter, decide_eq_true_eq]
  constructor
  · rintro ⟨a, ⟨h1, h2⟩, rfl⟩
    have : ln o g hn a.node = ln o g hn m := by unfold ln; rw [h2]
    exact ⟨⟨a, by rw [this]; exact h1, rfl⟩, h2⟩
  · rintro ⟨⟨a, h1, rfl⟩, h2⟩
    have : ln o g hn a.node = ln o g hn m := by unfold ln; rw [h2]
    rw [this] at h1
    exact ⟨a, ⟨h1, h2⟩, rfl⟩

/-- The number of new nodes that a worker stores. -/
def fresh (M : Mem n N V L) (i : Fin n) : Nat := (M.tab i).countP fun a => a.node.isNew

/-- Packets are for nodes of the given graph that can be reached, or for new nodes that haven't been received. -/
def Flies (o : Orders V L) (ask : N → L × N → Answer V L) (g : Gr N V L) (hn : 0 < n) (M : Mem n N V L) (p : Pkt N V L) : Prop :=
  (∃ m, p.node = .old m ∧ Reaches (g.next false) g.base m) ∨
    ∃ e, p.carrier = some e ∧ IsAnte e ∧ e.tgt = p.node ∧ Real ask g p.node ∧ M.mark p.node.root = true ∧ ¬ Done o g hn M p.node

/-- What's done with a packet. -/
inductive Does (o : Orders V L) (ask : N → L × N → Answer V L) (g : Gr N V L) (addr : Nd N V L → Nat) (limit : Nat) (hn : 0 < n) (s : Job n N V L) (p : Pkt N V L) :
    Job n N V L × List (Pkt N V L) → Prop
  | error (c : Nd N V L) (hc : St o g hn s.mem c) (e : Int) (he : e ≠ 0) (hq : (o.equal (vertex g p.node) (vertex g c)).2 = e) :
      Does o ask g addr limit hn s p (s.fail (ln o g hn p.node) e, [])
  | failed (m : N) (hp : p.node = .old m) (hm : Reaches (g.next false) g.base m) (he : failure ask g m ≠ 0) :
      Does o ask g addr limit hn s p (s.fail (ln o g hn p.node) (failure ask g m), [])
  | known (m : N) (hp : p.node = .old m) (hm : s.mem.mark m = true) : Does o ask g addr limit hn s p (s, [])
  | new (e : Edge N V L) (hp : p.carrier = some e) (he : IsAnte e) (het : e.tgt = p.node) (hre : Real ask g p.node)
      (hmk : s.mem.mark p.node.root = true) (hnd : ¬ Done o g hn s.mem p.node) (hc : ∀ d, St o g hn s.mem d → ¬ Eqv o g p.node d) :
      Does o ask g addr limit hn s p (grown limit (ln o g hn p.node) s p, [])
  | graft (e : Edge N V L) (hp : p.carrier = some e) (he : IsAnte e) (het : e.tgt = p.node) (hre : Real ask g p.node)
      (hmk : s.mem.mark p.node.root = true) (hnd : ¬ Done o g hn s.mem p.node) (c : Nd N V L) (hc : St o g hn s.mem c) (hq : Eqv o g p.node c) :
      Does o ask g addr limit hn s p ({ s with mem := Stretch.graft o addr (ln o g hn p.node) s.mem p.node c e }, [])
  | old (m : N) (hp : p.node = .old m) (hr : Reaches (g.next false) g.base m) (hm : s.mem.mark m = false)
      (hc : ∀ d, St o g hn s.mem d → ¬ Eqv o g p.node d) :
      Does o ask g addr limit hn s p (grown limit (ln o g hn p.node) { s with mem := scatter ask g s.mem m } p, sent ask g s.mem m)
  | over (m : N) (hp : p.node = .old m) (hr : Reaches (g.next false) g.base m) (hm : s.mem.mark m = false) (c : Nd N V L) (hcn : c.isNew = true)
      (hc : St o g hn s.mem c) (hq : Eqv o g p.node c) :
      Does o ask g addr limit hn s p ({ s with
        changed := Function.update s.changed (ln o g hn p.node) (s.changed (ln o g hn p.node) - 1)
        mem := overwrite o addr (ln o g hn p.node) (scatter ask g s.mem m) p.node c
          ((carriers (scatter ask g s.mem m) (ln o g hn p.node) c).filterMap id) p.carrier }, sent ask g s.mem m)

theorem act_does (ho : o.Lawful) (hw : g.WF) (hdi : Distinct o g) {s : Job n N V L} (hi : Inv o ask g hn s.mem) {p : Pkt N V L} (hp : Flies o ask g hn s.mem p)
    (hch : ∀ i, s.changed i = fresh s.mem i) : Does o ask g addr limit hn s p (act o ask g addr limit (ln o g hn p.node) s p) := by
  unfold act
  rcases hl : lookup o (vertex g) p.node (bin o g s.mem.tab (ln o g hn p.node) p.node) with ⟨w, x⟩
  dsimp only
  by_cases hx : x = 0
  swap
  · rw [if_pos hx]
    obtain ⟨c, h1, h2⟩ := lookup_error (o := o) (v := vertex g) (m := p.node) (cs := bin o g s.mem.tab (ln o g hn p.node) p.node) (by rw [hl]; exact hx)
    rw [hl] at h2
    exact .error c (mem_bin.1 h1).1 x hx h2
  subst hx
  rw [if_neg (by simp)]
  have hnone : w = none → ∀ d, St o g hn s.mem d → ¬ Eqv o g p.node d := by
    rintro rfl d hd h
    exact lookup_none ho hl d (mem_bin.2 ⟨hd, (ho.hash _ _ h).symm⟩) h
  have hsome : ∀ c, w = some c → St o g hn s.mem c ∧ Eqv o g p.node c := by
    rintro c rfl
    obtain ⟨h1, h2, -⟩ := lookup_some ho hl
    exact ⟨(mem_bin.1 h1).1, h2⟩
  clear hl
  obtain ⟨pn, pc⟩ := p
  dsimp only at *
  rcases hp with ⟨m, rfl, hr⟩ | ⟨e, rfl, he, het, hre, hmk, hnd⟩
  · by_cases hm : s.mem.mark m = true
    · have hst := (hi.mark m).1 hm
      have : w = some (.old m) := by
        cases w with
        | none => exact absurd (Eqv.refl ho _) (hnone rfl _ hst)
        | some c =>
          obtain ⟨h1, h2⟩ := hsome c rfl
          rw [hi.uniq ho h1 hst (Eqv.symm ho h2)]
      rw [if_pos this]
      exact .known m rfl hm
    · have hm' : s.mem.mark m = false := by simpa using hm
      have hnst : ¬ St o g hn s.mem (.old m) := fun h => hm ((hi.mark m).2 h)
      rw [if_neg (by rintro rfl; exact hnst (hsome _ rfl).1)]
      dsimp only
      by_cases hf : failure ask g m = 0
      swap
      · rw [if_pos hf]; exact .failed m rfl hr hf
      rw [if_neg (by simpa using hf)]
      cases w with
      | none => exact .old m rfl hr hm' (hnone rfl)
      | some c =>
        obtain ⟨h1, h2⟩ := hsome c rfl
        have hcn : c.isNew = true := by
          cases c with
          | new => rfl
          | old a =>
            have hne : m ≠ a := by rintro rfl; exact hnst h1
            have ha := (hw.reach _).2 (hi.reach a ((hi.mark a).2 h1))
            haveI : Std.Symm fun a b : N => ¬ o.Same (g.vertex a) (g.vertex b) := ⟨fun x y h h' => h (ho.vertex.symm _ _ h')⟩
            exact absurd h2 (List.Pairwise.forall hdi ((hw.reach _).2 hr) ha hne)
        obtain ⟨b, hb⟩ := h1
        have hln : ln o g hn c = ln o g hn (.old m) := (Eqv.ln ho h2).symm
        have hcar : none ∉ carriers (scatter ask g s.mem m) (ln o g hn (.old m)) c := by
          rw [← hln, show carriers (scatter ask g s.mem m) (ln o g hn c) c = carriers s.mem (ln o g hn c) c from rfl, carriers_eq hi ho hb]
          intro h
          obtain ⟨_, h, -⟩ := hi.carr c b hcn hb _ h
          cases h
        have hpos : s.changed (ln o g hn (.old m)) ≠ 0 := by
          rw [hch, ← hln]
          have : 0 < fresh s.mem (ln o g hn c) := List.countP_pos_iff.2 ⟨b, hb.1, by rw [hb.2]; exact hcn⟩
          omega
        unfold settle
        dsimp only
        rw [if_neg (by simp [Nd.isNew]), if_neg hpos, if_neg hcar]
        exact .over m rfl hr hm' c hcn ⟨b, hb⟩ h2
  · dsimp only at het
    have hpn : pn.isNew = true := het ▸ he.isNew
    rw [if_neg (by rintro rfl; exact hnd (.inl (hsome _ rfl).1))]
    cases pn with
    | old m => cases hpn
    | new m pos k r t =>
      dsimp only
      cases w with
      | none => exact .new e rfl he het hre hmk hnd (hnone rfl)
      | some c =>
        obtain ⟨h1, h2⟩ := hsome c rfl
        unfold settle
        dsimp only
        rw [if_pos (by rfl)]
        exact .graft e rfl he het hre hmk hnd c h1 h2

omit [DecidableEq N] [DecidableEq V] [DecidableEq L] in
theorem grown_mem (s : Job n N V L) (p : Pkt N V L) : (grown limit (ln o g hn p.node) s p).mem = push o g hn s.mem p.node p.carrier := rfl

/-- What becomes of the memory. -/
structure Moves (o : Orders V L) (ask : N → L × N → Answer V L) (g : Gr N V L) (limit : Nat) (hn : 0 < n) (s : Job n N V L) (p : Pkt N V L)
    (t : Job n N V L) (qs : List (Pkt N V L)) : Prop where
  inv : Inv o ask g hn t.mem
  done : ∀ d, Done o g hn t.mem d ↔ Done o g hn s.mem d ∨ d = p.node
  mark : ∀ a, t.mem.mark a = true ↔ s.mem.mark a = true ∨ p.node = .old a
  sent : (∃ m, p.node = .old m ∧ s.mem.mark m = false ∧ Reaches (g.next false) g.base m ∧ qs = Stretch.sent ask g s.mem m) ∨ (p.node.isNew = true ∧ qs = [])
  changed : (∀ i, s.changed i = fresh s.mem i) → ∀ i, t.changed i = fresh t.mem i
  count : limit ≠ 0 → (∀ i, s.count i = (s.mem.tab i).length) → ∀ i, t.count i = (t.mem.tab i).length
  long : ∀ i, (s.mem.tab i).length ≤ (t.mem.tab i).length
  err : t.err = s.err ∧ (limit ≠ 0 → (∀ i, s.count i = (s.mem.tab i).length) → ∀ i, (t.mem.tab i).length ≤ max limit (s.mem.tab i).length) ∨
    (limit ≠ 0 ∧ t.err = Function.update s.err (ln o g hn p.node) Build.intOvf ∧
      ((∀ i, s.count i = (s.mem.tab i).length) → limit < (t.mem.tab (ln o g hn p.node)).length) ∧
      ∀ i, i ≠ ln o g hn p.node → (t.mem.tab i).length = (s.mem.tab i).length)

omit [DecidableEq N] [DecidableEq V] [DecidableEq L] in
theorem grown_moves (s : Job n N V L) (p : Pkt N V L) :
    let t := grown limit (ln o g hn p.node) s p
    ((∀ i, s.changed i = fresh s.mem i) → ∀ i, t.changed i = fresh t.mem i) ∧
    (limit ≠ 0 → (∀ i, s.count i = (s.mem.tab i).length) → ∀ i, t.count i = (t.mem.tab i).length) ∧
    (∀ i, (s.mem.tab i).length ≤ (t.mem.tab i).length) ∧
    (t.err = s.err ∧ (limit ≠ 0 → (∀ i, s.count i = (s.mem.tab i).length) → ∀ i, (t.mem.tab i).length ≤ max limit (s.mem.tab i).length) ∨
    (limit ≠ 0 ∧ t.err = Function.update s.err (ln o g hn p.node) Build.intOvf ∧
      ((∀ i, s.count i = (s.mem.tab i).length) → limit < (t.mem.tab (ln o g hn p.node)).length) ∧
      ∀ i, i ≠ ln o g hn p.node → (t.mem.tab i).length = (s.mem.tab i).length)) := by
  intro t
  have htab : ∀ i, i ≠ ln o g hn p.node → t.mem.tab i = s.mem.tab i := fun i h => Function.update_of_ne h _ _
  have htab' : t.mem.tab (ln o g hn p.node) = s.mem.tab (ln o g hn p.node) ++ [⟨p.node, [p.carrier]⟩] := Function.update_self _ _ _
  have hlen : (t.mem.tab (ln o g hn p.node)).length = (s.mem.tab (ln o g hn p.node)).length + 1 := by rw [htab']; simp
  refine ⟨fun h i => ?_, fun hl h i => ?_, fun i => ?_, ?_⟩
  · show (if p.node.isNew then Function.update s.changed _ _ else s.changed) i = _
    unfold fresh at h ⊢
    by_cases hi : i = ln o g hn p.node
    · subst hi
      rw [htab', List.countP_append]
      split_ifs with hp
      · rw [Function.update_self, h]; simp [hp]
      · rw [h]; simp [hp]
    · rw [htab i hi]
      split_ifs
      · rw [Function.update_of_ne hi, h]
      · exact h i
  · show (if limit ≠ 0 then Function.update s.count _ _ else s.count) i = _
    rw [if_pos hl]
    by_cases hi : i = ln o g hn p.node
    · subst hi; rw [hlen, Function.update_self, h]
    · rw [htab i hi, Function.update_of_ne hi, h]
  · by_cases hi : i = ln o g hn p.node
    · subst hi; rw [hlen]; omega
    · rw [htab i hi]
  · by_cases hov : limit ≠ 0 ∧ limit ≤ s.count (ln o g hn p.node)
    · right
      refine ⟨hov.1, if_pos hov, fun h => ?_, fun i hi => by rw [htab i hi]⟩
      have := hov.2
      rw [h] at this
      omega
    · left
      refine ⟨if_neg hov, fun hl h i => ?_⟩
      by_cases hi : i = ln o g hn p.node
      · subst hi
        rw [hlen, ← h]
        have : s.count (ln o g hn p.node) < limit := by
          by_contra h'
          exact hov ⟨hl, by omega⟩
        omega
      · rw [htab i hi]; exact le_max_right _ _

omit [DecidableEq N] [DecidableEq V] [DecidableEq L] in
/-- Replacing one new node by another that isn't leaves fewer. -/
theorem countP_replace {P : Entry N V L → Bool} {c : Nd N V L} {f : Entry N V L → Entry N V L} {l : List (Entry N V L)}
    (hl : l.Pairwise fun a b => a.node ≠ b.node) {a : Entry N V L} (ha : a ∈ l) (hac : a.node = c) (hP : P a = true) (hf : P (f a) = false)
    (hg : ∀ b, b.node ≠ c → f b = b) : (l.map f).countP P = l.countP P - 1 := by
  induction l with
  | nil => cases ha
  | cons b l ih =>
    rw [List.pairwise_cons] at hl
    rw [List.map_cons, List.countP_cons, List.countP_cons]
    rcases List.mem_cons.1 ha with rfl | ha
    · have : l.map f = l := by
        conv_rhs => rw [← List.map_id l]
        refine List.map_congr_left fun b hb => hg b fun h => hl.1 b hb (hac.trans h.symm)
      rw [this, hP, hf]; simp
    · have hb : b.node ≠ c := fun h => hl.1 a ha (h.trans hac.symm)
      rw [ih hl.2 ha, hg b hb]
      have : 0 < l.countP P := List.countP_pos_iff.2 ⟨a, ha, hP⟩
      omega

theorem does_moves (ho : o.Lawful) (ha : Function.Injective addr) {s : Job n N V L} (hi : Inv o ask g hn s.mem) {p : Pkt N V L} {t qs}
    (h : Does o ask g addr limit hn s p (t, qs)) :
    (qs = [] ∧ ((∃ e, e ≠ 0 ∧ t = s.fail (ln o g hn p.node) e ∧ ((∃ c, St o g hn s.mem c ∧ (o.equal (vertex g p.node) (vertex g c)).2 = e) ∨
        ∃ m, Reaches (g.next false) g.base m ∧ failure ask g m = e)) ∨
      (t = s ∧ ∃ m, p.node = .old m ∧ s.mem.mark m = true))) ∨ Moves o ask g limit hn s p t qs := by
  generalize hr : (t, qs) = r at h
  cases h with
  | error c hc e he hq => cases hr; exact .inl ⟨rfl, .inl ⟨e, he, rfl, .inl ⟨c, hc, hq⟩⟩⟩
  | failed m hp hm he => cases hr; exact .inl ⟨rfl, .inl ⟨_, he, rfl, .inr ⟨m, hm, rfl⟩⟩⟩
  | known m hp hm => cases hr; exact .inl ⟨rfl, .inr ⟨rfl, m, hp, hm⟩⟩
  | new e hp he het hre hmk hnd hc =>
    cases hr
    right
    have hpn : p.node.isNew = true := het ▸ he.isNew
    obtain ⟨h1, h2, h3, h4⟩ := grown_moves (o := o) (g := g) (hn := hn) (limit := limit) s p
    refine ⟨?_, fun d => ?_, fun a => ?_, .inr ⟨hpn, rfl⟩, h1, h2, h3, h4⟩
    · rw [grown_mem, hp]; exact inv_storeNew ho hi he het hre hmk hnd hc
    · rw [grown_mem]; unfold Done; rw [st_push]
      show (St o g hn s.mem d ∨ d = p.node) ∨ d ∈ s.mem.dead ↔ _
      tauto
    · refine ⟨.inl, fun h => h.resolve_right fun h => ?_⟩
      rw [h] at hpn; cases hpn
  | graft e hp he het hre hmk hnd c hc hq =>
    cases hr
    right
    have hpn : p.node.isNew = true := het ▸ he.isNew
    have hln : ln o g hn c = ln o g hn p.node := (Eqv.ln ho hq).symm
    have hlen : ∀ i, ((Stretch.graft o addr (ln o g hn p.node) s.mem p.node c e).tab i).length = (s.mem.tab i).length := by
      intro i
      unfold Stretch.graft
      dsimp only
      by_cases h : i = ln o g hn p.node
      · subst h; rw [Function.update_self, List.length_map]
      · rw [Function.update_of_ne h]
    have hfr : ∀ i, fresh (Stretch.graft o addr (ln o g hn p.node) s.mem p.node c e) i = fresh s.mem i := by
      intro i
      unfold Stretch.graft fresh
      dsimp only
      by_cases h : i = ln o g hn p.node
      · subst h; rw [Function.update_self, List.countP_map]
        refine List.countP_congr fun a _ => ?_
        dsimp only [Function.comp]
        split_ifs <;> rfl
      · rw [Function.update_of_ne h]
    refine ⟨inv_graft ho ha hi he het hre hmk hnd hc hq, fun d => ?_, fun a => ?_, .inr ⟨hpn, rfl⟩, fun h i => by rw [hfr, h], fun _ h i => by rw [hlen]; exact h i,
      fun i => by rw [hlen], .inl ⟨rfl, fun _ _ i => by rw [hlen]; exact le_max_right _ _⟩⟩
    · have hS : St o g hn (Stretch.graft o addr (ln o g hn p.node) s.mem p.node c e) d ↔ St o g hn s.mem d := by
        constructor
        · rintro ⟨a, h⟩
          rcases (ent_graft hln).1 h with ⟨-, h⟩ | ⟨rfl, -⟩
          · exact ⟨a, h⟩
          · exact hc
        · rintro ⟨a, h⟩
          by_cases hdc : d = c
          · subst hdc; exact ⟨_, (ent_graft hln).2 (.inr ⟨rfl, a, h, rfl⟩)⟩
          · exact ⟨a, (ent_graft hln).2 (.inl ⟨hdc, h⟩)⟩
      unfold Done
      rw [hS]
      show _ ∨ d ∈ p.node :: s.mem.dead ↔ _
      rw [List.mem_cons]
      tauto
    · refine ⟨.inl, fun h => h.resolve_right fun h => ?_⟩
      rw [h] at hpn; cases hpn
  | old m hp hr' hm hc =>
    cases hr
    right
    obtain ⟨h1, h2, h3, h4⟩ := grown_moves (o := o) (g := g) (hn := hn) (limit := limit) { s with mem := scatter ask g s.mem m } p
    refine ⟨?_, fun d => ?_, fun a => ?_, .inl ⟨m, hp, hm, hr', rfl⟩, h1, h2, h3, h4⟩
    · rw [grown_mem]
      dsimp only
      rw [hp] at hc ⊢
      exact inv_storeOld ho hi hm hr' hc _
    · rw [grown_mem]; unfold Done; rw [st_push]
      show (St o g hn s.mem d ∨ d = p.node) ∨ d ∈ s.mem.dead ↔ _
      tauto
    · show Function.update s.mem.mark m true a = true ↔ _
      rw [hp]
      by_cases h : a = m
      · subst h; simp
      · rw [Function.update_of_ne h]
        exact ⟨.inl, fun h' => h'.resolve_right fun h' => h (by cases h'; rfl)⟩
  | over m hp hr' hm c hcn hc hq =>
    cases hr
    right
    have hln : ln o g hn c = ln o g hn p.node := (Eqv.ln ho hq).symm
    have hnst : ¬ St o g hn s.mem p.node := fun h => by rw [hp, ← hi.mark, hm] at h; cases h
    generalize hes : (carriers (scatter ask g s.mem m) (ln o g hn p.node) c).filterMap id = es
    have hlen : ∀ i, ((overwrite o addr (ln o g hn p.node) (scatter ask g s.mem m) p.node c es p.carrier).tab i).length = (s.mem.tab i).length := by
      intro i
      unfold overwrite scatter
      dsimp only
      by_cases h : i = ln o g hn p.node
      · subst h; rw [Function.update_self, List.length_map]
      · rw [Function.update_of_ne h]
    have hpnew : p.node.isNew = false := by rw [hp]; rfl
    refine ⟨?_, fun d => ?_, fun a => ?_, .inl ⟨m, hp, hm, hr', rfl⟩, fun h i => ?_, fun _ h i => by rw [hlen]; exact h i,
      fun i => by rw [hlen], .inl ⟨rfl, fun _ _ i => by rw [hlen]; exact le_max_right _ _⟩⟩
    · rw [← hes]
      dsimp only
      rw [hp] at hq ⊢
      exact inv_overwrite ho ha hi hm hr' hcn hc hq _
    · obtain ⟨b, hb⟩ := hc
      have hS : St o g hn (overwrite o addr (ln o g hn p.node) (scatter ask g s.mem m) p.node c es p.carrier) d ↔ (d ≠ c ∧ St o g hn s.mem d) ∨ d = p.node := by
        constructor
        · rintro ⟨a, h⟩
          rcases (ent_over (M := scatter ask g s.mem m) hln hnst).1 h with ⟨h1, h⟩ | ⟨rfl, -⟩
          · exact .inl ⟨h1, a, h⟩
          · exact .inr rfl
        · rintro (⟨h1, a, h⟩ | rfl)
          · exact ⟨a, (ent_over (M := scatter ask g s.mem m) hln hnst).2 (.inl ⟨h1, h⟩)⟩
          · exact ⟨_, (ent_over (M := scatter ask g s.mem m) hln hnst).2 (.inr ⟨rfl, b, hb, rfl⟩)⟩
      unfold Done
      dsimp only
      rw [hS]
      show _ ∨ d ∈ c :: s.mem.dead ↔ _
      rw [List.mem_cons]
      have hc : St o g hn s.mem c := ⟨b, hb⟩
      by_cases h : d = c
      · subst h; simp [hc]
      · simp only [h, ne_eq, not_false_eq_true, true_and, false_or]; tauto
    · show Function.update s.mem.mark m true a = true ↔ _
      rw [hp]
      by_cases h : a = m
      · subst h; simp
      · rw [Function.update_of_ne h]
        exact ⟨.inl, fun h' => h'.resolve_right fun h' => h (by cases h'; rfl)⟩
    · dsimp only
      by_cases hii : i = ln o g hn p.node
      · subst hii
        rw [Function.update_self, h]
        obtain ⟨b, hb⟩ := hc
        unfold fresh overwrite scatter
        dsimp only
        rw [Function.update_self]
        symm
        refine countP_replace (c := c) (a := b) ?_ (hln ▸ hb.1) hb.2 (by rw [hb.2]; exact hcn) ?_ fun b hb => if_neg hb
        · refine (hi.reps _).imp fun {a b} h h' => h ?_
          rw [h']; exact Eqv.refl ho _
        · rw [if_pos hb.2]; exact hpnew
      · rw [Function.update_of_ne hii, h]
        unfold fresh overwrite scatter
        dsimp only
        rw [Function.update_of_ne hii]

end Cru.Stretch
