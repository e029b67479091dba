import Verif.SuiteSpec

/-!
# The test runner

Proofs only.
-/

namespace Verif.Suite

/-! ## Picking a target -/

theorem pick_some {ts : List Target} {n : Str} {t : Target} (h : pick ts n = some t) :
    t ∈ ts ∧ t.name = n := by
  have h2 := List.find?_some h
  exact ⟨List.mem_of_find?_eq_some h, by simpa using h2⟩

theorem pick_none {ts : List Target} {n : Str} (h : pick ts n = none) : ∀ t ∈ ts, t.name ≠ n := by
  intro t ht
  have := List.find?_eq_none.1 h t ht
  simpa using this

theorem pick_only {ts : List Target} {n : Str} (ho : Only ts n) {t : Target} (ht : t ∈ ts)
    (hn : t.name = n) : pick ts n = some t := by
  cases h : pick ts n with
  | none => exact absurd hn (pick_none h t ht)
  | some t' =>
    have := pick_some h
    rw [ho t' this.1 t ht this.2 hn]

theorem Only.perm {ts ts' : List Target} {n : Str} (ho : Only ts n) (hp : ts.Perm ts') : Only ts' n :=
  fun t ht t' ht' => ho t (hp.mem_iff.2 ht) t' (hp.mem_iff.2 ht')

theorem pick_perm {ts ts' : List Target} {n : Str} (ho : Only ts n) (hp : ts.Perm ts') :
    pick ts n = pick ts' n := by
  cases h : pick ts n with
  | some t =>
    have := pick_some h
    exact (pick_only (ho.perm hp) (hp.mem_iff.1 this.1) this.2).symm
  | none =>
    cases h' : pick ts' n with
    | none => rfl
    | some t =>
      have := pick_some h'
      exact absurd this.2 (pick_none h t (hp.mem_iff.2 this.1))

theorem any_main {ts : List Target} : ts.any (fun t => t.name == "main".toList) = true ↔
    ∃ t ∈ ts, t.name = "main".toList := by
  simp [List.any_eq_true]

theorem enter_perm {ts ts' : List Target} {n : Option Str} (ho : Only ts (n.getD "main".toList))
    (hp : ts.Perm ts') : enter ts n = enter ts' n := by
  cases n with
  | some n =>
    simp only [enter, retarget]
    rw [pick_perm (n := n) ho hp]
  | none =>
    simp only [enter, retarget]
    rw [pick_perm (n := "main".toList) ho hp]
    have : ts.any (fun t => t.name == "main".toList) = ts'.any (fun t => t.name == "main".toList) := by
      rw [Bool.eq_iff_iff, any_main, any_main]
      constructor
      · rintro ⟨t, ht, h⟩; exact ⟨t, hp.mem_iff.1 ht, h⟩
      · rintro ⟨t, ht, h⟩; exact ⟨t, hp.mem_iff.2 ht, h⟩
    rw [this]

theorem only_of_nodup : ∀ {ts : List Target}, (ts.map (·.name)).Nodup → ∀ n, Only ts n
  | [], _, _ => fun _ h => by cases h
  | t :: ts, hn, n => by
    simp only [List.map_cons, List.nodup_cons, List.mem_map, not_exists, not_and] at hn
    intro a ha b hb ha' hb'
    rcases List.mem_cons.1 ha with rfl | ha <;> rcases List.mem_cons.1 hb with rfl | hb
    · rfl
    · exact absurd (hb'.trans ha'.symm) (hn.1 b hb)
    · next h => exact absurd (ha'.trans hb'.symm) (hn.1 a h)
    · exact only_of_nodup hn.2 n a ha b hb ha' hb'

/-! ## Checks -/

theorem contains_iff (sub : Str) : ∀ s, contains sub s = true ↔ sub <:+: s
  | [] => by
    simp only [contains, List.isPrefixOf_iff_prefix]
    simp
  | c :: s => by
    simp only [contains, Bool.or_eq_true, List.isPrefixOf_iff_prefix, contains_iff sub s,
      List.infix_cons_iff]

theorem failed_iff (c : Content) : failedExpect c = false ↔ Quiet c.err := by
  simp only [failedExpect, Quiet, List.any_eq_false]
  constructor
  · intro h l hl hc
    exact h l hl ((contains_iff _ _).2 hc)
  · intro h l hl hc
    exact h l hl ((contains_iff _ _).1 hc)

theorem isTrue_iff (v : Val) : v.isTrue = true ↔ v = .bool true := by
  cases v <;> simp [Val.isTrue]

theorem isPass_iff (v : Val) : isPass v = true ↔ v = .text "PASS".toList := by
  cases v <;> simp [isPass]

theorem member_none {ms : List (Str × Val)} {k : Str} : Val.member ms k = none ↔ ∀ v, (k, v) ∉ ms := by
  simp only [Val.member, Option.map_eq_none_iff, List.find?_eq_none]
  constructor
  · intro h v hv
    exact h _ hv (by simp)
  · rintro h ⟨k', v⟩ hm he
    have : k' = k := by simpa using he
    exact h v (this ▸ hm)

theorem fail_ne : ("FAIL".toList : Str) ≠ "PASS".toList := by decide

theorem verdict_iff (v : Val) : isPass (verdict v) = true ↔ Good v := by
  constructor
  · intro h
    rw [isPass_iff] at h
    cases v with
    | bool b => cases b with
      | true => exact .bare
      | false => exact absurd (by injection h) fail_ne
    | text s => simp [verdict] at h
    | null => simp [verdict] at h
    | other n => simp [verdict] at h
    | block ms =>
      simp only [verdict] at h
      cases hm : Val.member ms "RESULT".toList with
      | none =>
        rw [hm] at h
        simp only at h
        by_cases ha : (ms.all fun m => m.2.isTrue) = true
        · refine .each (member_none.1 hm) ?_
          intro m hmm
          exact (isTrue_iff _).1 (List.all_eq_true.1 ha m hmm)
        · rw [if_neg ha] at h
          exact absurd (by injection h) fail_ne
      | some r =>
        rw [hm] at h
        refine .named hm ?_
        cases r with
        | bool b => cases b with
          | true => exact .inl rfl
          | false => exact absurd (by injection h) fail_ne
        | text s => exact .inr h
        | null => simp at h
        | other n => simp at h
        | block _ => simp at h
  · intro h
    rw [isPass_iff]
    cases h with
    | bare => rfl
    | named hm hv =>
      simp only [verdict, hm]
      rcases hv with rfl | rfl <;> rfl
    | each hn ha =>
      simp only [verdict, member_none.2 hn]
      rw [if_pos]
      exact List.all_eq_true.2 fun m hm => (isTrue_iff _).2 (ha m hm)

theorem check_iff (w : World) (c : Content) (k : Str) :
    (∃ v, check w c k = some v ∧ isPass v = true) ↔ Holds w c k := by
  have hne : "default-expectation".toList ≠ "unguarded-expectation".toList ∧
      "default-expectation".toList ≠ "bench-expectation".toList ∧
      "unguarded-expectation".toList ≠ "bench-expectation".toList := by decide
  constructor
  · rintro ⟨v, hv, hp⟩
    unfold check at hv
    split at hv
    · next e =>
      subst e
      injection hv with hv
      subst hv
      cases hf : failedExpect c with
      | true => simp [hf, isPass] at hp
      | false =>
        rw [hf] at hp
        exact .default ((failed_iff c).1 hf) ((verdict_iff _).1 hp)
    · next n1 =>
      split at hv
      · next e =>
        subst e
        injection hv with hv
        subst hv
        exact .unguarded ((verdict_iff _).1 hp)
      · next n2 =>
        split at hv
        · next e => subst e; exact .bench
        · next n3 =>
          split at hv
          · injection hv with hv
            subst hv
            exact absurd hp (by decide)
          · next n4 =>
            split at hv
            · injection hv with hv
              subst hv
              simp [isPass] at hp
            · next n5 =>
              cases hf : w.fn k with
              | none =>
                rw [hf] at hv
                injection hv with hv
                subst hv
                exact absurd hp (by decide)
              | some f =>
                rw [hf] at hv
                refine .own ?_ hf (hv.trans (by rw [(isPass_iff v).1 hp]))
                simp only [List.mem_cons, List.not_mem_nil, or_false, not_or]
                exact ⟨n1, n2, n3, n4, n5⟩
  · intro h
    cases h with
    | default hq hg =>
      refine ⟨verdict c.result, ?_, (verdict_iff _).2 hg⟩
      rw [check, if_pos rfl, (failed_iff c).2 hq]
      rfl
    | unguarded hg =>
      refine ⟨verdict c.result, ?_, (verdict_iff _).2 hg⟩
      rw [check, if_neg hne.1.symm, if_pos rfl]
    | bench =>
      refine ⟨.text "PASS".toList, ?_, rfl⟩
      rw [check, if_neg hne.2.1.symm, if_neg hne.2.2.symm, if_pos rfl]
    | own hk hf hc =>
      simp only [List.mem_cons, List.not_mem_nil, or_false, not_or] at hk
      refine ⟨.text "PASS".toList, ?_, rfl⟩
      rw [check, if_neg hk.1, if_neg hk.2.1, if_neg hk.2.2.1, if_neg hk.2.2.2.1, if_neg hk.2.2.2.2, hf]
      exact hc

theorem checkAll_iff (w : World) (c : Content) : ∀ ks,
    (∃ vs, checkAll w c ks = some vs ∧ vs.all isPass = true) ↔ ∀ k ∈ ks, Holds w c k
  | [] => by simp [checkAll]
  | k :: ks => by
    have ih := checkAll_iff w c ks
    rw [List.forall_mem_cons, ← check_iff, ← ih]
    constructor
    · rintro ⟨vs, h, ha⟩
      unfold checkAll at h
      cases h1 : check w c k with
      | none => simp [h1] at h
      | some v =>
        cases h2 : checkAll w c ks with
        | none => simp [h1, h2] at h
        | some vs' =>
          simp only [h1, h2, Option.some.injEq] at h
          subst h
          simp only [List.all_cons, Bool.and_eq_true] at ha
          exact ⟨⟨v, rfl, ha.1⟩, ⟨vs', rfl, ha.2⟩⟩
    · rintro ⟨⟨v, h1, hp⟩, vs, h2, ha⟩
      exact ⟨v :: vs, by simp only [checkAll, h1, h2], by simp [hp, ha]⟩

theorem overall_iff (w : World) : ∀ ev : List (Str × (List Str × Content)),
    overall w ev = some true ↔ ∀ e ∈ ev, ∀ k ∈ e.2.1, Holds w e.2.2 k
  | [] => by simp [overall]
  | (k, ks, c) :: r => by
    have ih := overall_iff w r
    rw [List.forall_mem_cons, ← ih, ← checkAll_iff]
    simp only
    constructor
    · intro h
      unfold overall at h
      cases h1 : checkAll w c ks with
      | none => simp [h1] at h
      | some vs =>
        cases h2 : overall w r with
        | none => simp [h1, h2] at h
        | some b =>
          simp only [h1, h2, Option.some.injEq, Bool.and_eq_true] at h
          exact ⟨⟨vs, rfl, h.1⟩, congrArg some h.2⟩
    · rintro ⟨⟨vs, h1, ha⟩, h2⟩
      simp [overall, h1, h2, ha]

theorem checksOf_iff (t : Target) (k : Str) : k ∈ checksOf t ↔ Checked t k := by
  unfold checksOf Target.bench
  constructor
  · intro h
    split at h
    · next e =>
      split at h
      · next hb =>
        rw [List.mem_singleton] at h
        subst h
        exact .bench e (List.isPrefixOf_iff_prefix.1 hb)
      · next hb =>
        rw [List.mem_singleton] at h
        subst h
        exact .default e fun hc => hb (List.isPrefixOf_iff_prefix.2 hc)
    · exact .named h
  · intro h
    cases h with
    | named h =>
      rw [if_neg]
      · exact h
      · intro e; rw [e] at h; cases h
    | bench e hb => rw [if_pos e, if_pos (List.isPrefixOf_iff_prefix.2 hb)]; exact List.mem_singleton.2 rfl
    | default e hb =>
      rw [if_pos e, if_neg fun hc => hb (List.isPrefixOf_iff_prefix.1 hc)]; exact List.mem_singleton.2 rfl

/-! ## Evidence -/

theorem firsts_nodup {α : Type} : ∀ {l : List (Str × α)}, (l.map (·.1)).Nodup → firsts l = l
  | [], _ => rfl
  | (k, a) :: r, h => by
    simp only [List.map_cons, List.nodup_cons] at h
    rw [firsts, firsts_nodup h.2, List.filter_eq_self.2]
    intro q hq
    simp only [bne_iff_ne, ne_eq]
    intro e
    exact h.1 (List.mem_map.2 ⟨q, hq, e⟩)

abbrev Res := (Target × Str) × Outcome

theorem same_key : ∀ {rs : List Res}, (rs.map fun r => keyOf r.1).Nodup →
    ∀ r ∈ rs, ∀ r' ∈ rs, keyOf r.1 = keyOf r'.1 → r = r'
  | [], _ => fun _ h => by cases h
  | t :: ts, hn => by
    simp only [List.map_cons, List.nodup_cons, List.mem_map, not_exists, not_and] at hn
    intro a ha b hb he
    rcases List.mem_cons.1 ha with rfl | ha <;> rcases List.mem_cons.1 hb with rfl | hb
    · rfl
    · exact absurd he.symm (hn.1 b hb)
    · next h => exact absurd he (hn.1 a h)
    · exact same_key hn.2 a ha b hb he

theorem lastOf_eq {rs : List Res} (hn : (rs.map fun r => keyOf r.1).Nodup) {r : Res} (hr : r ∈ rs)
    (ok : Outcome → Bool) (hk : ok r.2 = true) : lastOf rs (keyOf r.1) ok = some r.2 := by
  unfold lastOf
  cases h : rs.reverse.find? (fun r' => keyOf r'.1 == keyOf r.1 && ok r'.2) with
  | none =>
    have := List.find?_eq_none.1 h r (List.mem_reverse.2 hr)
    simp [hk] at this
  | some r' =>
    have h1 := List.mem_reverse.1 (List.mem_of_find?_eq_some h)
    have h2 := List.find?_some h
    simp only [Bool.and_eq_true, beq_iff_eq] at h2
    rw [same_key hn r' h1 r hr h2.1]
    rfl

theorem contentOf_iff {rs : List Res} (hn : (rs.map fun r => keyOf r.1).Nodup) {r : Res} (hr : r ∈ rs)
    (c : Content) : contentOf rs r = some c ↔ Seen r.2 c := by
  unfold contentOf
  simp only
  rw [lastOf_eq hn hr _ rfl]
  simp only
  cases hc : r.2.code with
  | none =>
    simp only [Option.some.injEq]
    constructor
    · rintro rfl; exact .failed hc
    · intro h
      cases h with
      | done h' => rw [hc] at h'; cases h'
      | failed _ => rfl
  | some n =>
    rw [lastOf_eq hn hr _ (by rw [hc]; rfl)]
    simp only [Option.map_eq_some_iff]
    constructor
    · rintro ⟨v, hv, rfl⟩; exact .done hc hv
    · intro h
      cases h with
      | done h' hv => rw [hc] at h'; injection h' with h'; subst h'; exact ⟨_, hv, rfl⟩
      | failed h' => rw [hc] at h'; cases h'

theorem mapM_some {α β : Type} {f : α → Option β} : ∀ {l : List α} {bs : List β}, l.mapM f = some bs →
    (∀ a ∈ l, ∃ b ∈ bs, f a = some b) ∧ ∀ b ∈ bs, ∃ a ∈ l, f a = some b
  | [], bs, h => by
    simp only [List.mapM_nil, Option.pure_def, Option.some.injEq] at h
    subst h
    simp
  | a :: l, bs, h => by
    simp only [List.mapM_cons, Option.bind_eq_bind, Option.bind_eq_some_iff, Option.pure_def,
      Option.some.injEq] at h
    obtain ⟨b, hb, bs', hbs, rfl⟩ := h
    have ih := mapM_some hbs
    constructor
    · intro x hx
      rcases List.mem_cons.1 hx with rfl | hx
      · exact ⟨b, List.mem_cons_self, hb⟩
      · obtain ⟨y, hy, h⟩ := ih.1 x hx
        exact ⟨y, List.mem_cons_of_mem _ hy, h⟩
    · intro y hy
      rcases List.mem_cons.1 hy with rfl | hy
      · exact ⟨a, List.mem_cons_self, hb⟩
      · obtain ⟨x, hx, h⟩ := ih.2 y hy
        exact ⟨x, List.mem_cons_of_mem _ hx, h⟩

theorem mapM_all {α β : Type} {f : α → Option β} : ∀ {l : List α}, (∀ a ∈ l, ∃ b, f a = some b) →
    ∃ bs, l.mapM f = some bs
  | [], _ => ⟨[], rfl⟩
  | a :: l, h => by
    obtain ⟨b, hb⟩ := h a List.mem_cons_self
    obtain ⟨bs, hbs⟩ := mapM_all (l := l) fun x hx => h x (List.mem_cons_of_mem _ hx)
    exact ⟨b :: bs, by simp [List.mapM_cons, hb, hbs]⟩

theorem evidence_iff (w : World) {rs : List Res} (hn : (rs.map fun r => keyOf r.1).Nodup) :
    (∃ ev, evidence rs = some ev ∧ overall w ev = some true) ↔
      ∀ r ∈ rs, ∃ c, Seen r.2 c ∧ ∀ k, Checked r.1.1 k → Holds w c k := by
  have hf : firsts (rs.map fun r => (keyOf r.1, r)) = rs.map fun r => (keyOf r.1, r) :=
    firsts_nodup (by rw [List.map_map]; exact hn)
  simp only [overall_iff]
  unfold evidence
  rw [hf]
  constructor
  · rintro ⟨ev, he, ho⟩ r hr
    split at he
    · have := (mapM_some he).1 (keyOf r.1, r) (List.mem_map.2 ⟨r, hr, rfl⟩)
      obtain ⟨b, hb, e⟩ := this
      simp only [Option.map_eq_some_iff] at e
      obtain ⟨c, hc, rfl⟩ := e
      refine ⟨c, (contentOf_iff hn hr c).1 hc, fun k hk => ho _ hb k ((checksOf_iff _ _).2 hk)⟩
    · cases he
  · intro h
    have hr : readable rs = true := by
      refine List.all_eq_true.2 fun r hr => ?_
      obtain ⟨c, hc, _⟩ := h r hr
      cases hc with
      | done _ hv => simp [hv]
      | failed hc => simp [hc]
    obtain ⟨ev, he⟩ := mapM_all (l := rs.map fun r => (keyOf r.1, r))
      (f := fun q => (contentOf rs q.2).map fun c => (q.1, (checksOf q.2.1.1, c))) (by
        intro q hq
        obtain ⟨r, hr, rfl⟩ := List.mem_map.1 hq
        obtain ⟨c, hc, _⟩ := h r hr
        exact ⟨_, by rw [(contentOf_iff hn hr c).2 hc]; rfl⟩)
    refine ⟨ev, by rw [if_pos hr]; exact he, ?_⟩
    intro e hee k hk
    obtain ⟨q, hq, hqe⟩ := (mapM_some he).2 e hee
    obtain ⟨r, hr, rfl⟩ := List.mem_map.1 hq
    simp only [Option.map_eq_some_iff] at hqe
    obtain ⟨c', hc', rfl⟩ := hqe
    obtain ⟨c, hc, ha⟩ := h r hr
    have e2 : c' = c := by
      have := (contentOf_iff hn hr c).2 hc
      rw [hc'] at this
      injection this
    subst e2
    exact ha k ((checksOf_iff _ _).1 hk)

/-! ## Plans -/

theorem included_iff (s : Subject) (t : Target) (ht : t ∈ s.targets) : included s t = true ↔ Runs s t := by
  unfold included Target.bench
  have hm1 : ¬ ("test".toList <+: "main".toList) := by decide
  have hm2 : ¬ ("bench-".toList <+: "main".toList) := by decide
  constructor
  · intro h
    split at h
    · next hp =>
      rw [Bool.or_eq_true, List.isPrefixOf_iff_prefix, List.isPrefixOf_iff_prefix] at hp
      exact .own ht (by simpa using h) hp
    · next hp =>
      rw [Bool.or_eq_true, List.isPrefixOf_iff_prefix, List.isPrefixOf_iff_prefix, not_or] at hp
      rw [Bool.or_eq_true] at h
      rcases h with h | h
      · exact .main ht (by simpa using h)
      · refine .checked ht hp.1 hp.2 ?_
        intro e
        simp [e] at h
  · intro h
    cases h with
    | own _ ho hp =>
      rw [if_pos]
      · simpa using ho
      · rw [Bool.or_eq_true, List.isPrefixOf_iff_prefix, List.isPrefixOf_iff_prefix]; exact hp
    | main _ hn =>
      rw [if_neg]
      · rw [hn]; rfl
      · rw [Bool.or_eq_true, List.isPrefixOf_iff_prefix, List.isPrefixOf_iff_prefix, hn, not_or]
        exact ⟨hm1, hm2⟩
    | checked _ h1 h2 hc =>
      rw [if_neg]
      · cases hcs : t.checks with
        | nil => exact absurd hcs hc
        | cons _ _ => simp
      · rw [Bool.or_eq_true, List.isPrefixOf_iff_prefix, List.isPrefixOf_iff_prefix, not_or]
        exact ⟨h1, h2⟩

theorem Runs.mem {s : Subject} {t : Target} (h : Runs s t) : t ∈ s.targets := by cases h <;> assumption

theorem in_iff (s : Subject) (t : Target) (f : Str) :
    f ∈ fmtsOf s t ↔ In s t f := by
  unfold fmtsOf Subject.fmts
  cases hf : t.format with
  | some g =>
    simp only [List.mem_singleton]
    constructor
    · rintro rfl; exact .own hf
    · intro h
      cases h with
      | own h => rw [hf] at h; injection h with h; exact h.symm
      | given h => rw [hf] at h; cases h
      | yaml h => rw [hf] at h; cases h
  | none =>
    simp only
    split
    · next e =>
      constructor
      · intro h; rw [List.mem_singleton] at h; subst h; exact .yaml hf e
      · intro h
        cases h with
        | own h => rw [hf] at h; cases h
        | given _ h => rw [e] at h; cases h
        | yaml => exact List.mem_singleton.2 rfl
    · next e =>
      constructor
      · intro h; exact .given hf h
      · intro h
        cases h with
        | own h => rw [hf] at h; cases h
        | given _ h => exact h
        | yaml _ h => exact absurd h e

theorem plan_runs (s : Subject) (t : Target) (h : Runs s t) (fs : List Str) :
    (t, fs) ∈ plan s ↔ fs = fmtsOf s t := by
  unfold plan
  have hm : (t, fmtsOf s t) ∈ (s.targets.filter (included s)).map fun t => (t, fmtsOf s t) :=
    List.mem_map.2 ⟨t, List.mem_filter.2 ⟨h.mem, (included_iff s t h.mem).2 h⟩, rfl⟩
  simp only
  rw [if_neg (by intro e; rw [e] at hm; cases hm)]
  constructor
  · intro h2
    obtain ⟨t', _, e⟩ := List.mem_map.1 h2
    cases e
    rfl
  · rintro rfl; exact hm

theorem plan_mem (s : Subject) {t : Target} {fs : List Str} (h : (t, fs) ∈ plan s) :
    Runs s t ∨ ((∀ t, ¬ Runs s t) ∧ t = Target.whole ∧ fs = s.fmts) := by
  unfold plan at h
  simp only at h
  split at h
  · next e =>
    rw [List.mem_singleton] at h
    cases h
    refine .inr ⟨fun t ht => ?_, rfl, rfl⟩
    have : t ∈ s.targets.filter (included s) := List.mem_filter.2 ⟨ht.mem, (included_iff s t ht.mem).2 ht⟩
    rw [List.map_eq_nil_iff] at e
    rw [e] at this
    cases this
  · obtain ⟨t', ht', e⟩ := List.mem_map.1 h
    cases e
    have := List.mem_filter.1 ht'
    exact .inl ((included_iff s _ this.1).1 this.2)

theorem plan_none (s : Subject) (h : ∀ t, ¬ Runs s t) : plan s = [(Target.whole, s.fmts)] := by
  unfold plan
  simp only
  rw [if_pos]
  rw [List.map_eq_nil_iff, List.filter_eq_nil_iff]
  intro t ht hi
  exact h t ((included_iff s t ht).1 hi)

theorem combos_mem (s : Subject) (t : Target) (f : Str) : (t, f) ∈ combos (plan s) ↔
    (Runs s t ∧ In s t f) ∨ ((∀ t, ¬ Runs s t) ∧ t = Target.whole ∧ In s Target.whole f) := by
  unfold combos
  rw [List.mem_flatMap]
  constructor
  · rintro ⟨⟨t', fs⟩, hq, hm⟩
    obtain ⟨f', hf', e⟩ := List.mem_map.1 hm
    cases e
    rcases plan_mem s hq with h | ⟨h, rfl, rfl⟩
    · have := (plan_runs s _ h fs).1 hq
      subst this
      exact .inl ⟨h, (in_iff s _ f).1 hf'⟩
    · exact .inr ⟨h, rfl, (in_iff s Target.whole f).1 hf'⟩
  · rintro (⟨h, hi⟩ | ⟨h, rfl, hi⟩)
    · exact ⟨(t, _), (plan_runs s t h _).2 rfl, List.mem_map.2 ⟨f, (in_iff s t f).2 hi, rfl⟩⟩
    · rw [plan_none s h]
      exact ⟨_, List.mem_singleton.2 rfl, List.mem_map.2 ⟨f, (in_iff s Target.whole f).2 hi, rfl⟩⟩

/-! ## Keys -/

theorem dash_inj {a b f g : Str} (hf : '-' ∉ f) (hg : '-' ∉ g) (h : a ++ '-' :: f = b ++ '-' :: g) :
    a = b ∧ f = g := by
  have h2 := congrArg List.reverse h
  simp only [List.reverse_append, List.reverse_cons, List.append_assoc] at h2
  have key : ∀ (x y : Str) (u v : Str), '-' ∉ x → '-' ∉ y →
      x ++ (['-'] ++ u) = y ++ (['-'] ++ v) → x = y ∧ u = v := by
    intro x
    induction x with
    | nil =>
      intro y u v _ hy e
      cases y with
      | nil => simpa using e
      | cons c y =>
        simp only [List.nil_append, List.cons_append, List.cons.injEq] at e
        exact absurd (by rw [← e.1]; exact List.mem_cons_self) hy
    | cons c x ih =>
      intro y u v hx hy e
      cases y with
      | nil =>
        simp only [List.nil_append, List.cons_append, List.cons.injEq] at e
        exact absurd (by rw [e.1]; exact List.mem_cons_self) hx
      | cons d y =>
        simp only [List.cons_append, List.cons.injEq] at e
        have := ih y u v (fun h => hx (List.mem_cons_of_mem _ h)) (fun h => hy (List.mem_cons_of_mem _ h)) e.2
        exact ⟨by rw [e.1, this.1], this.2⟩
  have := key f.reverse g.reverse a.reverse b.reverse (by simpa using hf) (by simpa using hg) h2
  exact ⟨List.reverse_inj.1 this.2, List.reverse_inj.1 this.1⟩

theorem keyOf_inj {c d : Target × Str} (hc : c.1.name ≠ []) (hd : d.1.name ≠ []) (hf : '-' ∉ c.2)
    (hg : '-' ∉ d.2) (h : keyOf c = keyOf d) : c.1.name = d.1.name ∧ c.2 = d.2 := by
  unfold keyOf at h
  rw [if_neg hc, if_neg hd] at h
  exact dash_inj hf hg h

theorem nodup_map_inj {α β : Type} {f : α → β} : ∀ {l : List α}, l.Nodup →
    (∀ a ∈ l, ∀ b ∈ l, f a = f b → a = b) → (l.map f).Nodup
  | [], _, _ => List.nodup_nil
  | a :: l, hn, hi => by
    rw [List.nodup_cons] at hn
    rw [List.map_cons, List.nodup_cons]
    refine ⟨?_, nodup_map_inj hn.2 fun x hx y hy => hi x (List.mem_cons_of_mem _ hx) y (List.mem_cons_of_mem _ hy)⟩
    intro h
    obtain ⟨b, hb, e⟩ := List.mem_map.1 h
    have := hi b (List.mem_cons_of_mem _ hb) a List.mem_cons_self e
    exact hn.1 (this ▸ hb)

theorem keys_nodup : ∀ {ps : List (Target × List Str)}, (ps.map (·.1.name)).Nodup →
    (∀ p ∈ ps, p.1.name ≠ [] ∧ p.2.Nodup ∧ ∀ f ∈ p.2, '-' ∉ f) → ((combos ps).map keyOf).Nodup
  | [], _, _ => List.nodup_nil
  | p :: ps, hn, ha => by
    simp only [List.map_cons, List.nodup_cons] at hn
    have hp := ha p List.mem_cons_self
    have ih := keys_nodup hn.2 fun q hq => ha q (List.mem_cons_of_mem _ hq)
    have e : combos (p :: ps) = (p.2.map fun f => (p.1, f)) ++ combos ps := by
      simp [combos]
    rw [e, List.map_append, List.nodup_append]
    refine ⟨?_, ih, ?_⟩
    · rw [List.map_map]
      refine nodup_map_inj hp.2.1 ?_
      intro f hf g hg h
      exact (keyOf_inj (c := (p.1, f)) (d := (p.1, g)) hp.1 hp.1 (hp.2.2 f hf) (hp.2.2 g hg) h).2
    · intro k hk k' hk' hkk
      subst hkk
      obtain ⟨c, hc, rfl⟩ := List.mem_map.1 hk
      obtain ⟨f, hf, rfl⟩ := List.mem_map.1 hc
      obtain ⟨d, hd, hkd⟩ := List.mem_map.1 hk'
      obtain ⟨q, hq, hdq⟩ := List.mem_flatMap.1 hd
      obtain ⟨g, hg, rfl⟩ := List.mem_map.1 hdq
      have hq' := ha q (List.mem_cons_of_mem _ hq)
      have := keyOf_inj (c := (q.1, g)) (d := (p.1, f)) hq'.1 hp.1 (hq'.2.2 g hg) (hp.2.2 f hf) hkd
      exact hn.1 (List.mem_map.2 ⟨q, hq, this.1⟩)

theorem fmts_plain {s : Subject} {w : World} (h : Tidy s w) : s.fmts.Nodup ∧ ∀ f ∈ s.fmts, '-' ∉ f := by
  unfold Subject.fmts
  split
  · refine ⟨by simp, ?_⟩
    intro f hf
    rw [List.mem_singleton] at hf
    subst hf
    decide
  · exact ⟨h.formats, h.plain⟩

theorem plan_keys {s : Subject} {w : World} (h : Tidy s w) : ((combos (plan s)).map keyOf).Nodup := by
  by_cases hr : ∀ t, ¬ Runs s t
  · rw [plan_none s hr]
    have hf := fmts_plain h
    simp only [combos, List.flatMap_cons, List.flatMap_nil, List.append_nil, List.map_map]
    refine nodup_map_inj hf.1 ?_
    intro f h1 g h2 e
    simp only [Function.comp, keyOf, Target.whole, if_true] at e
    exact (dash_inj (hf.2 f h1) (hf.2 g h2) e).2
  · have hsub : ((plan s).map (·.1.name)).Nodup := by
      unfold plan
      simp only
      split
      · simp
      · rw [List.map_map]
        exact (List.Sublist.map _ List.filter_sublist).nodup h.names
    refine keys_nodup hsub ?_
    rintro ⟨t, fs⟩ hp
    rcases plan_mem s hp with hr' | ⟨hr', _⟩
    · refine ⟨(h.named t hr'.mem).1, ?_⟩
      rw [(plan_runs s t hr' fs).1 hp]
      unfold fmtsOf
      cases hf : t.format with
      | some f =>
        refine ⟨by simp, ?_⟩
        intro g hg
        simp only [List.mem_singleton] at hg
        subst hg
        exact h.plains t hr'.mem _ hf
      | none => exact fmts_plain h
    · exact absurd hr' hr

/-! ## Runs -/

theorem runOne_eq {s : Subject} {w : World} (hf : Fair s w) (h : Tidy s w) (i : Nat) {c : Target × Str}
    (hc : c ∈ combos (plan s)) : runOne w i c = w.run (place c.1) c.2 := by
  obtain ⟨t, f⟩ := c
  unfold runOne asked place
  rcases (combos_mem s t f).1 hc with ⟨hr, _⟩ | ⟨hr, rfl, _⟩
  · have hn := h.named t hr.mem
    have hp : pick (w.order i) t.name = some t :=
      pick_only ((only_of_nodup h.names _).perm (hf.order i).symm) ((hf.order i).mem_iff.2 hr.mem) rfl
    simp only [if_neg hn.1, enter, retarget, hp, if_neg hn.2, Except.map]
  · have : (w.order i).any (fun t => t.name == "main".toList) = false := by
      cases ha : (w.order i).any (fun t => t.name == "main".toList) with
      | false => rfl
      | true =>
        obtain ⟨t, ht, hn⟩ := any_main.1 ha
        exact absurd (.main ((hf.order i).mem_iff.1 ht) hn) (hr t)
    simp only [Target.whole, if_true, enter, this]
    rfl

theorem runAll_eq {w : World} {g : Target × Str → Option Outcome} : ∀ (cs : List (Target × Str)) (i : Nat),
    (∀ i, ∀ c ∈ cs, runOne w i c = g c) → (∀ c ∈ cs, ∃ o, g c = some o) →
    ∃ rs, runAll w i cs = some rs ∧ rs.map (·.1) = cs ∧ ∀ r ∈ rs, g r.1 = some r.2
  | [], i, _, _ => ⟨[], rfl, rfl, by simp⟩
  | c :: cs, i, h, hg => by
    obtain ⟨o, ho⟩ := hg c List.mem_cons_self
    obtain ⟨rs, h1, h2, h3⟩ := runAll_eq cs (i + 1) (fun i c hc => h i c (List.mem_cons_of_mem _ hc))
      fun c hc => hg c (List.mem_cons_of_mem _ hc)
    refine ⟨(c, o) :: rs, ?_, by simp [h2], ?_⟩
    · rw [runAll, h i c List.mem_cons_self, ho, h1]; rfl
    · intro r hr
      rcases List.mem_cons.1 hr with rfl | hr
      · exact ho
      · exact h3 r hr

theorem runAll_some {w : World} {g : Target × Str → Option Outcome} : ∀ (cs : List (Target × Str)) (i : Nat)
    (rs : List Res), (∀ i, ∀ c ∈ cs, runOne w i c = g c) → runAll w i cs = some rs →
    rs.map (·.1) = cs ∧ ∀ r ∈ rs, g r.1 = some r.2
  | [], _, rs, _, h => by
    cases h
    exact ⟨rfl, by simp⟩
  | c :: cs, i, rs, hg, h => by
    rw [runAll, hg i c List.mem_cons_self] at h
    cases ho : g c with
    | none => rw [ho] at h; cases h
    | some o =>
      rw [ho] at h
      simp only [Option.map_eq_some_iff] at h
      obtain ⟨rs', h', rfl⟩ := h
      have ih := runAll_some cs (i + 1) rs' (fun i c hc => hg i c (List.mem_cons_of_mem _ hc)) h'
      refine ⟨by simp [ih.1], ?_⟩
      intro r hr
      rcases List.mem_cons.1 hr with rfl | hr
      · exact ho
      · exact ih.2 r hr

theorem runPlan_iff {s : Subject} {w : World} (hf : Fair s w) (h : Tidy s w) :
    runPlan w s = some true ↔ ∀ c ∈ combos (plan s), Passes w c.1 c.2 := by
  have hv : pick w.checking "verify".toList = some verifyTarget := pick_only h.verify hf.verify rfl
  have hone := fun i c (hc : c ∈ combos (plan s)) => runOne_eq hf h i hc
  have hkeys := plan_keys h
  have nod : ∀ rs : List Res, rs.map (·.1) = combos (plan s) → (rs.map fun r => keyOf r.1).Nodup := by
    intro rs e
    rw [← e, List.map_map] at hkeys
    exact hkeys
  unfold runPlan
  simp only [if_pos hv]
  constructor
  · intro hp c hc
    cases hr : runAll w 0 (combos (plan s)) with
    | none => rw [hr] at hp; cases hp
    | some rs =>
      rw [hr] at hp
      simp only at hp
      have h1 := runAll_some _ 0 rs hone hr
      cases he : evidence rs with
      | none => rw [he] at hp; cases hp
      | some ev =>
        rw [he] at hp
        have h2 := (evidence_iff w (nod rs h1.1)).1 ⟨ev, he, hp⟩
        rw [← h1.1] at hc
        obtain ⟨r, hr, rfl⟩ := List.mem_map.1 hc
        obtain ⟨c, hc, hk⟩ := h2 r hr
        exact ⟨r.2, c, h1.2 r hr, hc, hk⟩
  · intro hp
    obtain ⟨rs, hr, h1, h2⟩ := runAll_eq (w := w) (g := fun c => w.run (place c.1) c.2)
      (combos (plan s)) 0 hone fun c hc => by
        obtain ⟨o, _, ho, _⟩ := hp c hc
        exact ⟨o, ho⟩
    rw [hr]
    simp only
    obtain ⟨ev, he, ho⟩ := (evidence_iff w (nod rs h1)).2 (by
      intro r hr
      obtain ⟨o, c, ho, hc, hk⟩ := hp r.1 (by rw [← h1]; exact List.mem_map.2 ⟨r, hr, rfl⟩)
      have := h2 r hr
      rw [ho] at this
      injection this with this
      subst this
      exact ⟨c, hc, hk⟩)
    rw [he]
    exact ho

theorem passed_iff (s : Subject) (w : World) :
    (∀ c ∈ combos (plan s), Passes w c.1 c.2) ↔ Passed s w := by
  constructor
  · intro h
    refine ⟨fun t f hr hi => h (t, f) ((combos_mem s t f).2 (.inl ⟨hr, hi⟩)), ?_⟩
    intro hr f hi
    exact h (Target.whole, f) ((combos_mem s _ f).2 (.inr ⟨hr, rfl, hi⟩))
  · rintro ⟨h1, h2⟩ ⟨t, f⟩ hc
    rcases (combos_mem s t f).1 hc with ⟨hr, hi⟩ | ⟨hr, rfl, hi⟩
    · exact h1 t f hr hi
    · exact h2 hr f hi

/-! ## Whole runs -/

theorem skipped_iff (allow : Bool) (s : Subject) : skipped allow s = true ↔ Left allow s := by
  simp [skipped, Left]

/-- What the loop leaves, when nothing is left out. -/
theorem loop_all {allow : Bool} : ∀ (ps : List (Subject × World)) (e : Nat) (files : List (Str × Bool)),
    (∀ p ∈ ps, skipped allow p.1 = false) → (∀ p ∈ ps, ∃ b, runPlan p.2 p.1 = some b) →
    ∃ e' files', loop allow ps e files = some (e', files' ++ files) ∧
      files'.map (fun f => some f) = (ps.map fun p => (runPlan p.2 p.1).map fun b => (p.1.stem, b)).reverse ∧
      ((∀ p ∈ ps, runPlan p.2 p.1 = some true) → e' = e) ∧
      ((∃ p ∈ ps, runPlan p.2 p.1 ≠ some true) → e' = 1) ∧ (e' = e ∨ e' = 1)
  | [], e, files, _, _ => ⟨e, [], rfl, rfl, by simp, by simp, .inl rfl⟩
  | (s, w) :: ps, e, files, hs, hr => by
    obtain ⟨b, hb⟩ := hr (s, w) List.mem_cons_self
    obtain ⟨e', fs, h1, h2, h3, h4, h5⟩ := loop_all ps (if b then e else 1) ((s.stem, b) :: files)
      (fun p hp => hs p (List.mem_cons_of_mem _ hp)) fun p hp => hr p (List.mem_cons_of_mem _ hp)
    refine ⟨e', fs ++ [(s.stem, b)], ?_, ?_, ?_, ?_, ?_⟩
    · have hsk : skipped allow s = false := hs (s, w) List.mem_cons_self
      have hb' : runPlan w s = some b := hb
      rw [loop, hsk, if_neg (by simp), hb']
      simp only
      rw [h1]
      simp
    · simp only [List.map_append, h2, List.map_cons, List.map_nil, List.reverse_cons]
      rw [show runPlan w s = some b from hb]
      rfl
    · intro ha
      have h := ha (s, w) List.mem_cons_self
      rw [hb] at h
      injection h with h
      subst h
      exact h3 fun p hp => ha p (List.mem_cons_of_mem _ hp)
    · rintro ⟨p, hp, hn⟩
      rcases List.mem_cons.1 hp with rfl | hp
      · rw [hb] at hn
        cases b with
        | true => exact absurd rfl hn
        | false => rcases h5 with h | h <;> exact h
      · exact h4 ⟨p, hp, hn⟩
    · cases b with
      | true => exact h5
      | false => rcases h5 with h | h <;> exact .inr h

theorem loop_none {allow : Bool} : ∀ (ps : List (Subject × World)) (e : Nat) (files : List (Str × Bool)),
    (∃ p ∈ ps, skipped allow p.1 = false ∧ runPlan p.2 p.1 = none) → loop allow ps e files = none
  | [], _, _, h => by obtain ⟨_, h, _⟩ := h; cases h
  | (s, w) :: ps, e, files, h => by
    rw [loop]
    obtain ⟨p, hp, h1, h2⟩ := h
    rcases List.mem_cons.1 hp with rfl | hp
    · rw [if_neg (by simp [h1]), h2]
    · split
      · exact loop_none ps _ _ ⟨p, hp, h1, h2⟩
      · cases runPlan w s with
        | none => rfl
        | some b => exact loop_none ps _ _ ⟨p, hp, h1, h2⟩

/-- The result files are those of the tests that were run. -/
theorem loop_files {allow : Bool} : ∀ (ps : List (Subject × World)) (e : Nat) (files : List (Str × Bool))
    (e' : Nat) (files' : List (Str × Bool)), loop allow ps e files = some (e', files') →
    ∀ f ∈ files', f ∈ files ∨ ∃ p ∈ ps, skipped allow p.1 = false ∧ p.1.stem = f.1
  | [], e, files, e', files', h => by
    cases h
    exact fun f hf => .inl hf
  | (s, w) :: ps, e, files, e', files', h => by
    rw [loop] at h
    intro f hf
    split at h
    · rcases loop_files ps _ _ _ _ h f hf with h' | ⟨p, hp, h'⟩
      · exact .inl h'
      · exact .inr ⟨p, List.mem_cons_of_mem _ hp, h'⟩
    · next hs =>
      cases hr : runPlan w s with
      | none => rw [hr] at h; cases h
      | some b =>
        rw [hr] at h
        rcases loop_files ps _ _ _ _ h f hf with h' | ⟨p, hp, h'⟩
        · rcases List.mem_cons.1 h' with rfl | h'
          · exact .inr ⟨(s, w), List.mem_cons_self, by simpa using hs, rfl⟩
          · exact .inl h'
        · exact .inr ⟨p, List.mem_cons_of_mem _ hp, h'⟩

theorem readReports_none {files : List (Str × Bool)} : ∀ {ps : List (Subject × World)},
    (∃ p ∈ ps, ∀ f ∈ files, f.1 ≠ p.1.stem) → readReports files ps = none
  | [], h => by obtain ⟨_, h, _⟩ := h; cases h
  | (s, w) :: ps, h => by
    obtain ⟨p, hp, hf⟩ := h
    rw [readReports]
    rcases List.mem_cons.1 hp with rfl | hp
    · rw [List.find?_eq_none.2 (by intro f hff; simpa using hf f hff)]
    · rw [readReports_none ⟨p, hp, hf⟩]
      cases files.find? (·.1 == s.stem) <;> rfl

theorem readReports_some {files : List (Str × Bool)} : ∀ {ps : List (Subject × World)},
    (∀ p ∈ ps, ∃ f ∈ files, f.1 = p.1.stem) → ∃ bs, readReports files ps = some bs
  | [], _ => ⟨[], rfl⟩
  | (s, w) :: ps, h => by
    obtain ⟨f, hf, e⟩ := h (s, w) List.mem_cons_self
    obtain ⟨bs, hbs⟩ := readReports_some (files := files) (ps := ps) fun p hp => h p (List.mem_cons_of_mem _ hp)
    rw [readReports, hbs]
    cases hf' : files.find? (·.1 == s.stem) with
    | none => exact absurd (List.find?_eq_none.1 hf' f hf) (by simp [e])
    | some p => exact ⟨p.2 :: bs, rfl⟩

theorem readReports_eq {files : List (Str × Bool)} : ∀ {ps : List (Subject × World)} {bs : List Bool},
    (∀ p ∈ ps, ∀ f ∈ files, f.1 = p.1.stem → runPlan p.2 p.1 = some f.2) →
    readReports files ps = some bs → bs.map some = ps.map fun p => runPlan p.2 p.1
  | [], bs, _, h => by cases h; rfl
  | (s, w) :: ps, bs, hu, h => by
    rw [readReports] at h
    cases h1 : files.find? (·.1 == s.stem) with
    | none => rw [h1] at h; cases h
    | some p =>
      cases h2 : readReports files ps with
      | none => rw [h1, h2] at h; cases h
      | some bs' =>
        rw [h1, h2] at h
        cases h
        have := hu (s, w) List.mem_cons_self p (List.mem_of_find?_eq_some h1)
          (by simpa using List.find?_some h1)
        simp only [List.map_cons, List.cons.injEq]
        exact ⟨this.symm, readReports_eq (fun p hp => hu p (List.mem_cons_of_mem _ hp)) h2⟩

end Verif.Suite
