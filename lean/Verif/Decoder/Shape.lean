import Verif.Decoder.Inv
import Verif.Decoder.Spec

/-! What the instructions of each operation are, and what they compute together. -/

namespace Thot.Decoder

variable {M U O : Type}

/-- The instructions that an operation may have. -/
def allowed : Op M U O → Instr M U O → List (Instr M U O) → Prop
  | .atomic u _, i, c =>
    match i with
    | .lock _ => True
    | .unlock _ => True
    | .act _ => True
    | .look v => v = u
    | .wait => .look u ∈ c
    | _ => False
  | .session u _, i, c =>
    match i with
    | .lock m => m ≠ .atomicOp
    | .unlock m => m ≠ .atomicOp
    | .act _ => True
    | .look v => v = u ∧ .unlockUser ∈ c
    | .lockUser => .unlockUser ∈ c
    | .unlockUser => .unlockUser ∉ c
    | .inc => True
    | .dec => .unlockUser ∉ c
    | _ => False
  | .clear _, i, c =>
    match i with
    | .lock _ => True
    | .unlock _ => True
    | .mact _ => True
    | .reset => True
    | .wait => .reset ∈ c
    | _ => False
  | .print _, i, c =>
    match i with
    | .lock _ => True
    | .unlock m => m = .atomicOp ∧ c = []
    | .peek _ => True
    | _ => False
  | _, _, _ => False

def Shape (op : Op M U O) : List (Instr M U O) → Prop
  | [] => True
  | i :: c => allowed op i c ∧ Shape op c

theorem shape_items (u : User) (b : List (Item M U O)) (body : List (Item M U O)) {c : List (Instr M U O)}
    (h : Shape (.atomic u b) c) : Shape (.atomic u b) (body.flatMap (itemCode u) ++ c) := by
  induction body with
  | nil => exact h
  | cons it l ih =>
    rw [List.flatMap_cons, List.append_assoc]
    cases it with
    | act f => exact ⟨trivial, ih⟩
    | pre f => exact ⟨trivial, trivial, trivial, ih⟩
    | look => exact ⟨trivial, rfl, trivial, ih⟩

theorem shape_uitems (u : User) (b : List (UItem M U O)) (body : List (UItem M U O)) {c : List (Instr M U O)}
    (h : Shape (.session u b) c) : Shape (.session u b) (body.flatMap uitemCode ++ c) := by
  induction body with
  | nil => exact h
  | cons it l ih =>
    rw [List.flatMap_cons, List.append_assoc]
    cases it with
    | act f => exact ⟨trivial, ih⟩
    | pre f => exact ⟨by simp [allowed], trivial, by simp [allowed], ih⟩

theorem shape_code (op : Op M U O) (hs : op.Safe) : Shape op (code op) := by
  cases op with
  | atomic u body =>
    have h := shape_items u body body (c := [.unlock .nonAtomic, .unlock .atomicOp]) ⟨trivial, trivial, trivial⟩
    simp only [code, List.append_assoc]
    exact ⟨trivial, trivial, by simp [allowed, lookCode], trivial, rfl, trivial, h⟩
  | initError u body => exact hs.elim
  | clear body =>
    have h : ∀ l : List (M → M), Shape (.clear body) (l.map .mact ++ ([.reset, .unlock .nonAtomic, .unlock .atomicOp] : List (Instr M U O))) := by
      intro l
      induction l with
      | nil => exact ⟨trivial, trivial, trivial, trivial⟩
      | cons f l ih => exact ⟨trivial, ih⟩
    simp only [code, List.append_assoc]
    exact ⟨trivial, trivial, by simp [allowed], h body⟩
  | print body =>
    have h : ∀ l : List (M → O), Shape (.print body) (l.map .peek ++ ([.unlock .atomicOp] : List (Instr M U O))) := by
      intro l
      induction l with
      | nil => exact ⟨⟨rfl, rfl⟩, trivial⟩
      | cons f l ih => exact ⟨trivial, ih⟩
    simp only [code, List.append_assoc]
    exact ⟨trivial, h body⟩
  | session u body =>
    have h := shape_uitems u body body (c := [.unlockUser, .lock .nonAtomic, .dec, .unlock .nonAtomic])
      ⟨by simp [allowed], by simp [allowed], by simp [allowed], by simp [allowed], trivial⟩
    simp only [code, List.append_assoc]
    exact ⟨by simp [allowed], trivial, by simp [allowed], by simp [allowed], by simp [allowed], by simp [allowed], by simp [allowed], h⟩
  | release u => exact hs.elim

/-! What the instructions compute. -/

/-- The steps on the data of the user. -/
def acts : List (Instr M U O) → List (M → U → M × U × O)
  | [] => []
  | .act f :: c => f :: acts c
  | _ :: c => acts c

/-- The steps that read the shared state. -/
def peeks : List (Instr M U O) → List (M → O)
  | [] => []
  | .peek f :: c => f :: peeks c
  | _ :: c => peeks c

/-- The steps that change the shared state. -/
def macts : List (Instr M U O) → List (M → M)
  | [] => []
  | .mact f :: c => f :: macts c
  | _ :: c => macts c

def runActs : List (M → U → M × U × O) → M → U → M × U × List O
  | [], m, x => (m, x, [])
  | f :: l, m, x => let r := f m x; let q := runActs l r.1 r.2.1; (q.1, q.2.1, r.2.2 :: q.2.2)

theorem acts_append (a b : List (Instr M U O)) : acts (a ++ b) = acts a ++ acts b := by
  induction a with
  | nil => rfl
  | cons i a ih => cases i <;> simp [acts, ih]

theorem acts_code_atomic (u : User) (body : List (Item M U O)) (m : M) (x : U) :
    runActs (acts (code (.atomic u body))) m x = runItems body m x := by
  simp only [code, acts_append, lookCode, acts, List.nil_append, List.append_nil]
  induction body generalizing m x with
  | nil => rfl
  | cons it l ih =>
    rw [List.flatMap_cons, acts_append]
    cases it <;> simp [itemCode, acts, runActs, runItems, lookCode, ih]

theorem acts_code_session (u : User) (body : List (UItem M U O)) (m : M) (x : U) :
    runActs (acts (code (.session u body))) m x = (m, runUItems body m x) := by
  simp only [code, acts_append, lookCode, acts, List.nil_append, List.append_nil]
  induction body generalizing x with
  | nil => rfl
  | cons it l ih =>
    rw [List.flatMap_cons, acts_append]
    cases it <;> simp [uitemCode, acts, runActs, runUItems, lift, ih]

theorem peeks_code_print (body : List (M → O)) : peeks (code (.print body : Op M U O)) = body := by
  simp only [code, List.cons_append, List.nil_append, peeks]
  induction body with
  | nil => rfl
  | cons f l ih => simp only [List.map_cons, List.cons_append, peeks, ih]

theorem macts_code_clear (body : List (M → M)) : macts (code (.clear body : Op M U O)) = body := by
  simp only [code, List.cons_append, List.nil_append, macts]
  induction body with
  | nil => rfl
  | cons f l ih => simp only [List.map_cons, List.cons_append, macts, ih]

theorem quiet_acts {c : List (Instr M U O)} (h : quiet c = true) : acts c = [] ∧ peeks c = [] ∧ macts c = [] := by
  induction c with
  | nil => exact ⟨rfl, rfl, rfl⟩
  | cons i c ih => cases i <;> simp_all [quiet, acts, peeks, macts]

theorem quiet_needs {c : List (Instr M U O)} (h : quiet c = true) : needs c = false := by
  induction c with
  | nil => rfl
  | cons i c ih => cases i <;> simp_all [quiet, needs]

/-- The index of a user is only used in an operation that is counted or that excludes the others. -/
theorem Good.needs {c : List (Instr M U O)} : Good c → needs c = true → Decoder.counted c = true ∨ Decoder.excl c = true := by
  induction c with
  | nil => simp [Decoder.needs]
  | cons i c ih =>
    rintro ⟨h1, h2⟩ h3
    cases i with
    | lock m =>
      rcases ih h2 h3 with h | h
      · exact Or.inl h
      · obtain ⟨_, _, _, _, h5⟩ := h1
        right
        have hA : m ≠ .atomicOp := fun e => by rw [h5 (Or.inl e)] at h; simp at h
        have hN : m ≠ .nonAtomic := fun e => by rw [h5 (Or.inr e)] at h; simp at h
        simpa [Decoder.excl, holds, hA, hN, noWait] using h
    | unlock m =>
      rcases ih h2 h3 with h | h
      · exact Or.inl h
      · right
        rw [excl_iff] at h ⊢
        simp only [holds, noWait]
        refine ⟨?_, ?_, h.2.2⟩
        · split
          · rfl
          · exact h.1
        · split
          · rfl
          · exact h.2.1
    | lockUser => exact Or.inl h1.2.1
    | unlockUser => exact Or.inl h1.2.1
    | wait => have := h1.2.2.2.2.2.2.1; simp_all [Decoder.needs]
    | inc => have := h1.2.2.2.2; simp_all [Decoder.needs]
    | dec => exact Or.inl rfl
    | look u => simp [Decoder.needs] at h3
    | act f =>
      rcases h1 with ⟨h1, _⟩ | ⟨_, h1⟩
      · exact Or.inl (h2.counted h1)
      · exact Or.inr (by simpa [Decoder.excl, holds, noWait] using h1)
    | peek f => simpa [Decoder.excl, holds, noWait, Decoder.counted] using ih h2 h3
    | mact f => simpa [Decoder.excl, holds, noWait, Decoder.counted] using ih h2 h3
    | reset => simp [Decoder.needs] at h3
    | release u => exact h1.elim

end Thot.Decoder
