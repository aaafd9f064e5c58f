import Verif.Decoder.Shape

/-! The invariant that relates a concurrent execution with a sequential one. -/

namespace Thot.Decoder

variable {M U O : Type}

def Op.user : Op M U O → Option User
  | .atomic u _ => some u
  | .session u _ => some u
  | _ => none

/-- The operation has not taken effect. -/
def pend : Op M U O → List (Instr M U O) → Prop
  | .session _ _, c => .unlockUser ∈ c
  | .atomic _ _, c => noWait c = false ∨ excl c = true
  | .clear _, c => noWait c = false ∨ excl c = true
  | .print _, c => .unlock .atomicOp ∈ c
  | _, _ => False

/-- An operation that has not taken effect will have that of its execution from the state `A`. -/
def TI (initU : M → U) (A : Abs M U) (sh : Shared M U) (op : Op M U O) (c : List (Instr M U O)) (reg : Nat) (out : List O) : Prop :=
  match op with
  | .session u body =>
    (inUser c = false → out = [] ∧ acts c = acts (code (.session u body))) ∧
    (inUser c = true → (runActs (acts c) sh.mem (sh.umem reg)).2.1 = (runUItems body A.mem (A.data initU u)).1 ∧
      out ++ (runActs (acts c) sh.mem (sh.umem reg)).2.2 = (runUItems body A.mem (A.data initU u)).2)
  | .atomic u body =>
    (excl c = false → out = [] ∧ acts c = acts (code (.atomic u body))) ∧
    (excl c = true →
      (∀ (i : Nat) (v : User), sh.users[i]? = some v → v ≠ u → A.us v = some (sh.umem i)) ∧
      (∀ v, A.us v ≠ none → v ∈ sh.users) ∧
      (.look u ∈ c ∨ u ∈ sh.users) ∧
      (u ∉ sh.users → out = [] ∧ acts c = acts (code (.atomic u body)) ∧ sh.mem = A.mem) ∧
      (∀ i : Nat, sh.users[i]? = some u →
        (runActs (acts c) sh.mem (sh.umem i)).1 = (runItems body A.mem (A.data initU u)).1 ∧
        (runActs (acts c) sh.mem (sh.umem i)).2.1 = (runItems body A.mem (A.data initU u)).2.1 ∧
        out ++ (runActs (acts c) sh.mem (sh.umem i)).2.2 = (runItems body A.mem (A.data initU u)).2.2))
  | .clear body =>
    out = [] ∧ (excl c = false → macts c = body) ∧
    (excl c = true → (macts c).foldl (fun m f => f m) sh.mem = body.foldl (fun m f => f m) A.mem ∧ (.reset ∈ c ∨ sh.users = []))
  | .print body =>
    (holds .atomicOp c = false → out = [] ∧ peeks c = body) ∧
    (holds .atomicOp c = true → out ++ (peeks c).map (fun f => f A.mem) = body.map fun f => f A.mem)
  | _ => False

/-- The data members agree with the state `A` when no operation excludes the others. -/
structure Glob (initU : M → U) (A : Abs M U) (sh : Shared M U) : Prop where
  mem : sh.mem = A.mem
  known : ∀ v, A.us v ≠ none → v ∈ sh.users
  data : ∀ (i : Nat) (v : User), sh.users[i]? = some v → sh.heldU i = none → sh.umem i = A.data initU v

/-- The state `s` is reached by a sequential execution `l` followed by operations that have not taken effect. -/
structure SInv (initU : M → U) (ops : List (Op M U O)) (A0 : Abs M U) (s : St M U O) (l : List (Nat × List O)) (A : Abs M U) : Prop where
  inv : Inv s
  opsEq : s.th.map (·.op) = ops
  shape : ∀ (t : Nat) (th : Thread M U O), s.th[t]? = some th → Shape th.op th.code
  nodup : s.sh.users.Nodup
  needs : ∀ (t : Nat) (th : Thread M U O), s.th[t]? = some th → needs th.code = true →
    ∃ u, th.op.user = some u ∧ s.sh.users[th.reg]? = some u
  seq : Seq initU ops A0 l A
  lnodup : (l.map (·.1)).Nodup
  committed : ∀ (t : Nat) (th : Thread M U O), s.th[t]? = some th → (t ∈ l.map (·.1) ↔ ¬ pend th.op th.code)
  results : ∀ (t : Nat) (o : List O), (t, o) ∈ l → ∃ th, s.th[t]? = some th ∧ th.out = o
  quiet : ∀ (t : Nat) (th : Thread M U O), s.th[t]? = some th → ¬ pend th.op th.code → quiet th.code = true
  threads : ∀ (t : Nat) (th : Thread M U O), s.th[t]? = some th → pend th.op th.code → TI initU A s.sh th.op th.code th.reg th.out
  glob : (∀ (t : Nat) (th : Thread M U O), s.th[t]? = some th → excl th.code = false) → Glob initU A s.sh
  reg : ∀ u ∈ s.sh.users, A.us u ≠ none ∨ ∃ (t : Nat) (th : Thread M U O), s.th[t]? = some th ∧ th.op.user = some u ∧ pend th.op th.code ∧
    (counted th.code = true ∨ excl th.code = true)

theorem SInv.advance {initU : M → U} {ops : List (Op M U O)} {A0 : Abs M U} {s : St M U O} {l : List (Nat × List O)} {A : Abs M U}
    {s' : St M U O} {t : Nat} {th th' : Thread M U O} {b : Bool}
    {l' : List (Nat × List O)} {A' : Abs M U}
    (hS : SInv initU ops A0 s l A) (ht : s.th[t]? = some th)
    (he : s'.th = (s.th.map (w b)).set t th') (hinv : Inv s')
    (hop : th'.op = th.op) (hsh : Shape th.op th'.code)
    (o1 : (l' = l ∧ A' = A ∧ (pend th.op th'.code ↔ pend th.op th.code) ∧ (¬ pend th.op th.code → th'.out = th.out)) ∨
      (pend th.op th.code ∧ ¬ pend th.op th'.code ∧ l' = l ++ [(t, (Decoder.seq initU th.op A).2)] ∧ A' = (Decoder.seq initU th.op A).1 ∧
        th'.out = (Decoder.seq initU th.op A).2))
    (o2 : s'.sh.users.Nodup)
    (o3 : Decoder.needs th'.code = true → ∃ u, th.op.user = some u ∧ s'.sh.users[th'.reg]? = some u)
    (o4 : ∀ (t' : Nat) (y : Thread M U O), t' ≠ t → s.th[t']? = some y → Decoder.needs y.code = true →
      s'.sh.users[y.reg]? = s.sh.users[y.reg]?)
    (o5 : pend th.op th'.code → TI initU A' s'.sh th.op th'.code th'.reg th'.out)
    (o6 : ∀ (t' : Nat) (y : Thread M U O), t' ≠ t → s.th[t']? = some y → TI initU A s.sh y.op y.code y.reg y.out →
      TI initU A' s'.sh y.op y.code y.reg y.out)
    (o7 : ¬ pend th.op th'.code → Decoder.quiet th'.code = true)
    (o8 : Decoder.excl th'.code = false → (∀ (t' : Nat) (y : Thread M U O), t' ≠ t → s.th[t']? = some y → Decoder.excl y.code = false) →
      Glob initU A' s'.sh)
    (o9 : ∀ u ∈ s'.sh.users, A'.us u ≠ none ∨
      (th.op.user = some u ∧ pend th.op th'.code ∧ (Decoder.counted th'.code = true ∨ Decoder.excl th'.code = true)) ∨
      ∃ (t' : Nat) (y : Thread M U O), t' ≠ t ∧ s.th[t']? = some y ∧ y.op.user = some u ∧ pend y.op y.code ∧
        (Decoder.counted y.code = true ∨ Decoder.excl y.code = true)) :
    SInv initU ops A0 s' l' A' := by
  have hg := get_step (l := s.th) b th' ht
  have hops : s'.th.map (·.op) = ops := by
    rw [← hS.opsEq, he]
    apply List.ext_getElem?
    intro i
    rw [List.getElem?_map, List.getElem?_map, List.getElem?_set]
    by_cases hi : t = i
    · subst hi
      have hlt : t < s.th.length := (List.getElem?_eq_some_iff.1 ht).1
      simp only [if_true, List.length_map, hlt, ht, Option.map_some, hop]
    · simp only [hi, if_false, List.getElem?_map, Option.map_map]
      congr 1
      funext x; simp [w_op]
  have hopt : ops[t]? = some th.op := by rw [← hS.opsEq, List.getElem?_map, ht]; rfl
  have hself : s'.th[t]? = some th' := by rw [he, hg]; exact Or.inl ⟨rfl, rfl⟩
  have hother : ∀ t' y, t' ≠ t → s.th[t']? = some y → s'.th[t']? = some (w b y) := by
    intro t' y hne hy
    rw [he, hg]; exact Or.inr ⟨hne, y, hy, rfl⟩
  have htl : pend th.op th.code → t ∉ l.map (·.1) := fun h h' => (hS.committed t th ht).1 h' h
  refine ⟨hinv, hops, ?_, o2, ?_, ?_, ?_, ?_, ?_, ?_, ?_, ?_, ?_⟩
  · intro t' x hx
    rw [he, hg] at hx
    rcases hx with ⟨rfl, rfl⟩ | ⟨hne, y, hy, rfl⟩
    · rw [hop]; exact hsh
    · rw [w_op, w_code]; exact hS.shape t' y hy
  · intro t' x hx hn
    rw [he, hg] at hx
    rcases hx with ⟨rfl, rfl⟩ | ⟨hne, y, hy, rfl⟩
    · rw [hop]; exact o3 hn
    · rw [w_code] at hn
      rw [w_op, w_reg, o4 t' y hne hy hn]
      exact hS.needs t' y hy hn
  · rcases o1 with ⟨rfl, rfl, _⟩ | ⟨_, _, rfl, rfl, _⟩
    · exact hS.seq
    · exact hS.seq.snoc hopt
  · rcases o1 with ⟨rfl, rfl, _⟩ | ⟨h1, _, rfl, rfl, _⟩
    · exact hS.lnodup
    · rw [List.map_append, List.nodup_append]
      refine ⟨hS.lnodup, by simp, ?_⟩
      intro a ha c hc
      simp only [List.map_cons, List.map_nil, List.mem_singleton] at hc
      rintro rfl
      rw [hc] at ha
      exact htl h1 ha
  · intro t' x hx
    rw [he, hg] at hx
    rcases hx with ⟨rfl, rfl⟩ | ⟨hne, y, hy, rfl⟩
    · rw [hop]
      rcases o1 with ⟨rfl, rfl, h1, _⟩ | ⟨_, h2, rfl, rfl, _⟩
      · rw [h1]; exact hS.committed _ _ ht
      · simp [h2]
    · rw [w_op, w_code, ← hS.committed t' y hy]
      rcases o1 with ⟨rfl, rfl, h1, _⟩ | ⟨_, h2, rfl, rfl, _⟩
      · rfl
      · rw [List.map_append, List.mem_append]
        simp [hne]
  · intro t' o ho
    have key : ∀ o, (t', o) ∈ l → ∃ th, s'.th[t']? = some th ∧ th.out = o := by
      intro o ho
      obtain ⟨y, hy, hyo⟩ := hS.results t' o ho
      by_cases hne : t' = t
      · subst hne
        rw [ht] at hy
        obtain rfl : th = y := by simpa using hy
        refine ⟨th', hself, ?_⟩
        have hnp : ¬ pend th.op th.code := (hS.committed _ _ ht).1 (List.mem_map.2 ⟨_, ho, rfl⟩)
        rcases o1 with ⟨rfl, rfl, h1, h2⟩ | ⟨h1, _⟩
        · rw [h2 hnp, hyo]
        · exact absurd h1 hnp
      · exact ⟨w b y, hother t' y hne hy, by rw [w_out]; exact hyo⟩
    rcases o1 with ⟨rfl, rfl, _⟩ | ⟨_, _, rfl, rfl, h1⟩
    · exact key o ho
    · rcases List.mem_append.1 ho with ho | ho
      · exact key o ho
      · simp only [List.mem_singleton, Prod.mk.injEq] at ho
        obtain ⟨rfl, rfl⟩ := ho
        exact ⟨th', hself, h1⟩
  · intro t' x hx hp
    rw [he, hg] at hx
    rcases hx with ⟨rfl, rfl⟩ | ⟨hne, y, hy, rfl⟩
    · rw [hop] at hp; exact o7 hp
    · rw [w_op, w_code] at hp
      rw [w_code]; exact hS.quiet t' y hy hp
  · intro t' x hx hp
    rw [he, hg] at hx
    rcases hx with ⟨rfl, rfl⟩ | ⟨hne, y, hy, rfl⟩
    · rw [hop] at hp ⊢; exact o5 hp
    · rw [w_op, w_code] at hp
      rw [w_op, w_code, w_reg, w_out]; exact o6 t' y hne hy (hS.threads t' y hy hp)
  · intro hx
    refine o8 (hx t th' hself) ?_
    intro t' y hne hy
    have := hx t' _ (hother t' y hne hy)
    rwa [w_code] at this
  · intro u hu
    rcases o9 u hu with h | ⟨h1, h2, h3⟩ | ⟨t', y, hne, hy, h1, h2, h3⟩
    · exact Or.inl h
    · exact Or.inr ⟨t, th', hself, by rw [hop]; exact h1, by rw [hop]; exact h2, h3⟩
    · exact Or.inr ⟨t', _, hother t' y hne hy, by rw [w_op]; exact h1, by rw [w_op, w_code]; exact h2, by rw [w_code]; exact h3⟩

/-- A step that changes neither the data nor what is needed of them. -/
theorem SInv.silent {initU : M → U} {ops : List (Op M U O)} {A0 : Abs M U} {s : St M U O} {l : List (Nat × List O)} {A : Abs M U}
    {s' : St M U O} {t : Nat} {th th' : Thread M U O} {b : Bool}
    (hS : SInv initU ops A0 s l A) (ht : s.th[t]? = some th)
    (he : s'.th = (s.th.map (w b)).set t th') (hinv : Inv s')
    (hop : th'.op = th.op) (hreg : th'.reg = th.reg) (hout : th'.out = th.out) (hsh : Shape th.op th'.code)
    (hmem : s'.sh.mem = s.sh.mem) (husers : s'.sh.users = s.sh.users) (humem : s'.sh.umem = s.sh.umem)
    (hheld : ∀ i, s'.sh.heldU i = none → s.sh.heldU i = none)
    (hpend : pend th.op th'.code ↔ pend th.op th.code)
    (hneeds : Decoder.needs th'.code = true → Decoder.needs th.code = true)
    (hTI : pend th.op th.code → TI initU A s.sh th.op th.code th.reg th.out → TI initU A s'.sh th.op th'.code th.reg th.out)
    (hq : Decoder.quiet th.code = true → Decoder.quiet th'.code = true)
    (hex : Decoder.excl th.code = true → Decoder.excl th'.code = true)
    (hreg' : pend th.op th.code → Decoder.counted th.code = true → Decoder.counted th'.code = true) :
    SInv initU ops A0 s' l A := by
  refine hS.advance ht he hinv hop hsh (Or.inl ⟨rfl, rfl, hpend, fun _ => hout⟩) (by rw [husers]; exact hS.nodup) ?_ ?_ ?_ ?_ ?_ ?_ ?_
  · intro h
    rw [husers, hreg]
    exact hS.needs t th ht (hneeds h)
  · intro t' y _ _ _; rw [husers]
  · intro h
    rw [hreg, hout]
    exact hTI (hpend.1 h) (hS.threads t th ht (hpend.1 h))
  · intro t' y hne hy h
    unfold TI at h ⊢
    rw [hmem, husers, humem]
    exact h
  · intro h; exact hq (hS.quiet t th ht (fun h' => h (hpend.2 h')))
  · intro h1 h2
    have hG := hS.glob (by
      intro t' y hy
      by_cases hne : t' = t
      · subst hne
        rw [ht] at hy
        obtain rfl : th = y := by simpa using hy
        cases hx : Decoder.excl th.code with
        | false => rfl
        | true => rw [hex hx] at h1; simp at h1
      · exact h2 t' y hne hy)
    refine ⟨by rw [hmem]; exact hG.mem, by rw [husers]; exact hG.known, ?_⟩
    intro i v hv hh
    rw [husers] at hv
    rw [humem]
    exact hG.data i v hv (hheld i hh)
  · intro u hu
    rw [husers] at hu
    rcases hS.reg u hu with h | ⟨t', y, hy, h1, h2, h3⟩
    · exact Or.inl h
    · by_cases hne : t' = t
      · subst hne
        rw [ht] at hy
        obtain rfl : th = y := by simpa using hy
        refine Or.inr (Or.inl ⟨h1, hpend.2 h2, ?_⟩)
        rcases h3 with h3 | h3
        · exact Or.inl (hreg' h2 h3)
        · exact Or.inr (hex h3)
      · exact Or.inr (Or.inr ⟨t', y, hne, hy, h1, h2, h3⟩)

end Thot.Decoder
