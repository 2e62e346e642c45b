import Verif.Parse.Sound

/-! # What is in the grammar is parsed -/

namespace Verif.Parse

/-! ## Runs without fuel and without warnings -/

def RTerm (ts : List Tok) (t : Term) (rest : List Tok) : Prop :=
  ∃ N, ∀ n, N ≤ n → term n ⟨ts, false⟩ = .ok (some t, ⟨rest, false⟩)
def RFol (ts : List Tok) (fs : List Follow) (rest : List Tok) : Prop :=
  ∃ N, ∀ n, N ≤ n → follows n ⟨ts, false⟩ = .ok (fs, ⟨rest, false⟩)
def RGrp (ts : List Tok) (e : Expr) (rest : List Tok) : Prop :=
  ∃ N, ∀ n, N ≤ n → group n ⟨ts, false⟩ = .ok (some e, ⟨rest, false⟩)
def REx (lim : Nat) (ts : List Tok) (e : Expr) (rest : List Tok) : Prop :=
  ∃ N, ∀ n, N ≤ n → exprEx n lim ⟨ts, false⟩ = .ok (some e, ⟨rest, false⟩)
def RLoop (lim : Nat) (e0 : Expr) (ts : List Tok) (e : Expr) (rest : List Tok) : Prop :=
  ∃ N, ∀ n, N ≤ n → exLoop n lim e0 ⟨ts, false⟩ = .ok (e, ⟨rest, false⟩)
def RPart (lhs : Expr) (p : Punct) (ts : List Tok) (e : Expr) (rest : List Tok) : Prop :=
  ∃ N, ∀ n, N ≤ n → part n lhs p ⟨ts, false⟩ = .ok (e, ⟨rest, false⟩)
def RPLoop (prev : Punct) (bits : List Expr) (ops : List Op) (rhs : Expr) (ts : List Tok)
    (res : List Expr × List Op × Expr) (rest : List Tok) : Prop :=
  ∃ N, ∀ n, N ≤ n → partLoop n prev bits ops rhs ⟨ts, false⟩ = .ok (res, ⟨rest, false⟩)
def RTern (conds : List Expr) (r : Expr) (ts : List Tok) (e : Expr) (rest : List Tok) : Prop :=
  ∃ N, ∀ n, N ≤ n → ternLoop n conds r ⟨ts, false⟩ = .ok (e, ⟨rest, false⟩)

/-- what may come after an expression of level `m` -/
structure Ends (m : Nat) (rest : List Tok) : Prop where
  incr : ∀ r, rest ≠ .plusPlus :: r
  decr : ∀ r, rest ≠ .minusMinus :: r
  index : ∀ s r, rest ≠ .lbracket s :: r
  op : ∀ q r, rest = .op q :: r → m ≤ q.strength
  «to» : ∀ r, rest = .to :: r → m ≤ 13

/-- operators tighter than level `m` are used up -/
inductive Steps (m : Nat) : Expr → List Tok → Expr → List Tok → Prop where
  | refl {e ts} : Steps m e ts e ts
  | step {e q r e1 r1 e2 r2} : q.strength < m → RPart e q r e1 r1 → Steps m e1 r1 e2 r2 → Steps m e (.op q :: r) e2 r2

theorem Steps.trans {m e ts e1 ts1 e2 ts2} (h : Steps m e ts e1 ts1) (h' : Steps m e1 ts1 e2 ts2) :
    Steps m e ts e2 ts2 := by
  induction h with
  | refl => exact h'
  | step h1 h2 _ ih => exact .step h1 h2 (ih h')

theorem Steps.mono {m m' e ts e1 ts1} (h : Steps m e ts e1 ts1) (hm : m ≤ m') : Steps m' e ts e1 ts1 := by
  induction h with
  | refl => exact .refl
  | step h1 h2 _ ih => exact .step (by omega) h2 ih

/-- the parser gets to the end of an expression of level `k` -/
def Reach (k : Nat) (ts : List Tok) (e : Expr) (rest : List Tok) : Prop :=
  ∃ e0 r0, RGrp (ts ++ rest) e0 r0 ∧ Steps k e0 r0 e rest

theorem loop_of_steps {m lim e0 ts e rest} (h : Steps m e0 ts e rest) (hm : m = lim + 1 ∨ (m = 15 ∧ lim = 13))
    (hr : Ends m rest) : RLoop lim e0 ts e rest := by
  induction h with
  | @refl e ts =>
    refine ⟨1, fun n hn => ?_⟩
    obtain ⟨n, rfl⟩ : ∃ k, n = k + 1 := ⟨n - 1, by omega⟩
    rw [exLoop]
    split
    · rename_i p r heq
      have := hr.op p r heq
      rw [if_pos (by omega)]
    · rfl
  | @step e q r e1 r1 e2 r2 h1 h2 _ ih =>
    obtain ⟨N1, h2⟩ := h2
    obtain ⟨N2, h3⟩ := ih hr
    refine ⟨max N1 N2 + 1, fun n hn => ?_⟩
    obtain ⟨n, rfl⟩ : ∃ k, n = k + 1 := ⟨n - 1, by omega⟩
    have := strength_le q
    rw [exLoop]
    simp only
    rw [if_neg (by omega), h2 n (by omega)]
    exact h3 n (by omega)

theorem ex_of_reach {m lim ts e rest} (h : Reach m ts e rest) (hm : m = lim + 1 ∨ (m = 15 ∧ lim = 13))
    (hr : Ends m rest) : REx lim (ts ++ rest) e rest := by
  obtain ⟨e0, r0, ⟨N1, h1⟩, h2⟩ := h
  obtain ⟨N2, h3⟩ := loop_of_steps h2 hm hr
  refine ⟨max N1 N2 + 1, fun n hn => ?_⟩
  obtain ⟨n, rfl⟩ : ∃ k, n = k + 1 := ⟨n - 1, by omega⟩
  rw [exprEx, h1 n (by omega)]
  simp only
  rw [h3 n (by omega)]

theorem ploop_steps {m e0 ts e rest} (h : Steps m e0 ts e rest) {prev : Punct} (hm : m = prev.strength) {bits ops res r'}
    (h' : RPLoop prev bits ops e rest res r') : RPLoop prev bits ops e0 ts res r' := by
  induction h with
  | refl => exact h'
  | @step e q r e1 r1 e2 r2 h1 h2 _ ih =>
    obtain ⟨N1, h2⟩ := h2
    obtain ⟨N2, h3⟩ := ih h'
    refine ⟨max N1 N2 + 1, fun n hn => ?_⟩
    obtain ⟨n, rfl⟩ : ∃ k, n = k + 1 := ⟨n - 1, by omega⟩
    rw [partLoop]
    simp only
    rw [if_pos (by omega), h2 n (by omega)]
    exact h3 n (by omega)

/-- all operands of a chain are reached -/
theorem ploop_chain {prev : Punct} {s : Nat} (hs : s = prev.strength) (l : Items) (tr : List Tok) (rhs : Expr) (rest : List Tok)
    (hl : ∀ x ∈ l, x.2.2.strength = s ∧ ∀ rest', Reach s x.1 x.2.1 (.op x.2.2 :: rest'))
    (hr : Reach s tr rhs rest) (hend : ∀ q r, rest = .op q :: r → s < q.strength) (bits : List Expr) (ops : List Op) :
    ∃ e0 r0, RGrp (l.flat ++ (tr ++ rest)) e0 r0 ∧
      RPLoop prev bits ops e0 r0 (bits ++ l.bits, ops ++ l.ops, rhs) rest := by
  induction l generalizing bits ops with
  | nil =>
    obtain ⟨e0, r0, h1, h2⟩ := hr
    refine ⟨e0, r0, h1, ploop_steps h2 hs ?_⟩
    refine ⟨1, fun n hn => ?_⟩
    obtain ⟨n, rfl⟩ : ∃ k, n = k + 1 := ⟨n - 1, by omega⟩
    simp only [Items.bits, Items.ops, List.map_nil, List.append_nil]
    rw [partLoop]
    split
    · rename_i q r heq
      have := hend q r heq
      rw [if_neg (by omega), if_pos (by omega)]
    · rfl
  | cons x l ih =>
    obtain ⟨t, b, q⟩ := x
    obtain ⟨hq, hx⟩ := hl (t, b, q) (by simp)
    simp only at hq hx
    obtain ⟨e1, r1, ⟨N1, h1⟩, N2, h2⟩ := ih (fun y hy => hl y (by simp [hy])) (bits ++ [b]) (ops ++ [q.oper])
    obtain ⟨e0, r0, h3, h4⟩ := hx (Items.flat l ++ (tr ++ rest))
    refine ⟨e0, r0, by simpa [Items.flat] using h3, ploop_steps h4 hs ?_⟩
    refine ⟨max N1 N2 + 1, fun n hn => ?_⟩
    obtain ⟨n, rfl⟩ : ∃ k, n = k + 1 := ⟨n - 1, by omega⟩
    rw [partLoop]
    simp only
    rw [if_neg (by omega), if_neg (by omega), h1 n (by omega)]
    simp only
    rw [h2 n (by omega)]
    simp [Items.bits, Items.ops]

/-! ## Chains in the grammar -/

theorem buildLeft_snoc (a : Expr) (bs : List Expr) (ops : List Op) (r e : Expr) (hlen : ops.length = bs.length + 1)
    (h : buildLeft a bs ops r = .ok e) (op : Op) (rhs : Expr) :
    buildLeft a (bs ++ [r]) (ops ++ [op]) rhs = op.build e rhs := by
  induction bs generalizing a ops with
  | nil =>
    match ops, hlen with
    | [o], _ =>
      simp only [buildLeft] at h
      simp [buildLeft, h]
  | cons b bs ih =>
    match ops, hlen with
    | o :: ops, hlen =>
      simp only [buildLeft] at h
      cases hb : o.build a b with
      | error e => rw [hb] at h; cases h
      | ok e1 =>
        rw [hb] at h
        simp only [List.cons_append, buildLeft, hb]
        exact ih e1 ops (by simpa using hlen) h

/-- a chain of operands joined by operators of strength `k` -/
structure Chain (k : Nat) (ts : List Tok) (l : Items) (tr : List Tok) (rhs : Expr) : Prop where
  ne : l ≠ []
  ok : l.Ok k
  last : Derives k tr rhs
  toks : ts = l.flat ++ tr

theorem Chain.lt {k ts l tr rhs} (h : Chain k ts l tr rhs) :
    (∀ x ∈ l, x.1.length < ts.length) ∧ tr.length < ts.length := by
  rw [h.toks]
  have h1 : ∀ l : Items, ∀ x ∈ l, x.1.length < l.flat.length := by
    intro l
    induction l with
    | nil => intro x hx; cases hx
    | cons y l ih =>
      intro x hx
      have : Items.flat (y :: l) = y.1 ++ ([.op y.2.2] ++ Items.flat l) := by simp [Items.flat]
      rw [this]
      simp only [List.length_append, List.length_cons]
      rcases List.mem_cons.1 hx with rfl | hx
      · omega
      · have := ih x hx; omega
  constructor
  · intro x hx
    have := h1 l x hx
    rw [List.length_append]; omega
  · cases hl : l with
    | nil => exact absurd hl h.ne
    | cons y l' =>
      have := h1 (y :: l') y (by simp)
      rw [List.length_append]; omega

theorem leftOp_oper {k p o} (h : LeftOp k p o) : p.oper = .binary o ∧ p.strength + 1 = k ∧ k ≠ 12 ∧ k ≠ 13 := by
  cases h <;> decide

theorem rightOp_oper {p o} (h : RightOp p o) : p.oper = .assign o ∧ p.strength = 12 := by
  cases h <;> decide

theorem ops_length (l : Items) : l.ops.length = l.bits.length := by simp [Items.ops, Items.bits]

theorem left_chain (L : Nat) : ∀ (k : Nat) (ts : List Tok) (e : Expr), ts.length < L → k ≠ 11 → k ≠ 12 → k ≠ 14 →
    Derives (k + 1) ts e → Derives k ts e ∨ ∃ l tr r, Chain k ts l tr r ∧ build k l.bits l.ops r = .ok e := by
  induction L with
  | zero => intro k ts e h; omega
  | succ L ih =>
    intro k ts e hL h11 h12 h14 h
    cases h with
    | up _ h => exact .inl h
    | @left _ p o t1 t2 a b hop ha hb =>
      right
      obtain ⟨h1, h2, _, _⟩ := leftOp_oper hop
      simp only [List.length_append, List.length_cons] at hL
      have hs : p.strength = k := by omega
      have hrb : rightBinding k = false := by simpa [rightBinding] using h12
      rcases ih k t1 a (by omega) h11 h12 h14 ha with ha | ⟨l, tr, r, hc, hbd⟩
      · refine ⟨[(t1, a, p)], t2, b, ⟨by simp, ?_, hb, by simp [Items.flat]⟩, ?_⟩
        · intro x hx
          simp only [List.mem_singleton] at hx
          subst hx
          exact ⟨ha, hs⟩
        · simp [build, hrb, Items.bits, Items.ops, buildLeft, h1, Op.build]
      · refine ⟨l ++ [(tr, r, p)], t2, b, ⟨by simp, ?_, hb, ?_⟩, ?_⟩
        · intro x hx
          rcases List.mem_append.1 hx with hx | hx
          · exact hc.ok x hx
          · simp only [List.mem_singleton] at hx
            subst hx
            exact ⟨hc.last, hs⟩
        · rw [hc.toks]; simp [Items.flat]
        · have e1 : Items.bits (l ++ [(tr, r, p)]) = l.bits ++ [r] := by simp [Items.bits]
          have e2 : Items.ops (l ++ [(tr, r, p)]) = l.ops ++ [p.oper] := by simp [Items.ops]
          rw [e1, e2]
          have hlen := ops_length l
          unfold build at hbd ⊢
          rw [hrb] at hbd ⊢
          cases hbits : l.bits with
          | nil => rw [hbits] at hbd; cases hbd
          | cons b0 bs =>
            rw [hbits] at hbd hlen
            have := buildLeft_snoc b0 bs l.ops r a (by simpa using hlen) hbd p.oper b
            rw [h1] at this ⊢
            exact this
    | cond => omega
    | assign => omega
    | «to» => omega

theorem right_chain (L : Nat) : ∀ (ts : List Tok) (e : Expr), ts.length < L →
    Derives 13 ts e → Derives 12 ts e ∨ ∃ l tr r, Chain 12 ts l tr r ∧ build 12 l.bits l.ops r = .ok e := by
  induction L with
  | zero => intro ts e h; omega
  | succ L ih =>
    intro ts e hL h
    cases h with
    | up _ h => exact .inl h
    | left h => exact absurd rfl (leftOp_oper h).2.2.2
    | @assign p o t1 t2 a b hop ha hb =>
      right
      obtain ⟨h1, hs⟩ := rightOp_oper hop
      simp only [List.length_append, List.length_cons] at hL
      have hrb : rightBinding 12 = true := rfl
      rcases ih t2 b (by omega) hb with hb | ⟨l, tr, r, hc, hbd⟩
      · refine ⟨[(t1, a, p)], t2, b, ⟨by simp, ?_, hb, by simp [Items.flat]⟩, ?_⟩
        · intro x hx
          simp only [List.mem_singleton] at hx
          subst hx
          exact ⟨ha, hs⟩
        · simp [build, hrb, Items.bits, Items.ops, buildRight, h1, Op.build]
      · refine ⟨(t1, a, p) :: l, tr, r, ⟨by simp, ?_, hc.last, ?_⟩, ?_⟩
        · intro x hx
          rcases List.mem_cons.1 hx with rfl | hx
          · exact ⟨ha, hs⟩
          · exact hc.ok x hx
        · rw [hc.toks]; simp [Items.flat]
        · unfold build at hbd ⊢
          rw [if_pos hrb] at hbd ⊢
          have e1 : Items.bits ((t1, a, p) :: l) = a :: l.bits := rfl
          have e2 : Items.ops ((t1, a, p) :: l) = p.oper :: l.ops := rfl
          rw [e1, e2, List.zip_cons_cons, buildRight, hbd]
          simp [h1, Op.build]

/-- the end of a conditional: the `else` arms for the conditions `conds`, the nearest first -/
inductive Arms : List Expr → Expr → List Tok → Expr → Prop where
  | nil {r} : Arms [] r [] r
  | cons {c conds r t e ts x} : Derives 12 t e → Arms conds (.ternary c r e) ts x →
    Arms (c :: conds) r (.colon :: (t ++ ts)) x

theorem Arms.snoc {conds r ts x c t e} (h : Arms conds r ts x) (ht : Derives 12 t e) :
    Arms (conds ++ [c]) r (ts ++ (.colon :: t)) (.ternary c x e) := by
  induction h with
  | nil => simpa using Arms.cons (c := c) ht .nil
  | cons h1 _ ih =>
    have := Arms.cons h1 ih
    simpa using this

theorem cond_chain (L : Nat) : ∀ (ts : List Tok) (e : Expr), ts.length < L →
    Derives 12 ts e → Derives 11 ts e ∨ ∃ l tr r ts' tail, Chain 11 ts' l tr r ∧ ts = ts' ++ tail ∧ tail ≠ [] ∧
      Arms l.bits.reverse r tail e := by
  induction L with
  | zero => intro ts e h; omega
  | succ L ih =>
    intro ts e hL h
    cases h with
    | up _ h => exact .inl h
    | left h => exact absurd rfl (leftOp_oper h).2.2.1
    | @cond t1 t2 t3 c a b hc ha hb =>
      right
      simp only [List.length_append, List.length_cons] at hL
      rcases ih t2 a (by omega) ha with ha | ⟨l, tr, r, ts', tail, hch, htok, htail, harms⟩
      · refine ⟨[(t1, c, .questionMark)], t2, a, _, .colon :: t3, ⟨by simp, ?_, ha, rfl⟩, by simp [Items.flat], by simp, ?_⟩
        · intro x hx
          simp only [List.mem_singleton] at hx
          subst hx
          exact ⟨hc, rfl⟩
        · simpa [Items.bits] using Arms.cons (c := c) (r := a) hb .nil
      · refine ⟨(t1, c, .questionMark) :: l, tr, r, _, tail ++ (.colon :: t3), ⟨by simp, ?_, hch.last, rfl⟩, ?_, by simp, ?_⟩
        · intro x hx
          rcases List.mem_cons.1 hx with rfl | hx
          · exact ⟨hc, rfl⟩
          · exact hch.ok x hx
        · rw [htok, hch.toks]; simp [Items.flat]
        · simpa [Items.bits] using harms.snoc (c := c) hb

theorem ends_op {m : Nat} {q : Punct} {r : List Tok} (h : m ≤ q.strength) : Ends m (.op q :: r) where
  incr := by intro r h; cases h
  decr := by intro r h; cases h
  index := by intro s r h; cases h
  op := by intro q' r' h'; cases h'; exact h
  «to» := by intro r' h'; cases h'

theorem ends_colon {m : Nat} {r : List Tok} : Ends m (.colon :: r) where
  incr := by intro r h; cases h
  decr := by intro r h; cases h
  index := by intro s r h; cases h
  op := by intro q' r' h'; cases h'
  «to» := by intro r' h'; cases h'

theorem ends_rparen {m : Nat} {r : List Tok} : Ends m (.rparen :: r) where
  incr := by intro r h; cases h
  decr := by intro r h; cases h
  index := by intro s r h; cases h
  op := by intro q' r' h'; cases h'
  «to» := by intro r' h'; cases h'

theorem ends_rbracket {m : Nat} {r : List Tok} : Ends m (.rbracket :: r) where
  incr := by intro r h; cases h
  decr := by intro r h; cases h
  index := by intro s r h; cases h
  op := by intro q' r' h'; cases h'
  «to» := by intro r' h'; cases h'

theorem ends_to {m : Nat} {r : List Tok} (h : m ≤ 13) : Ends m (.to :: r) where
  incr := by intro r h; cases h
  decr := by intro r h; cases h
  index := by intro s r h; cases h
  op := by intro q' r' h'; cases h'
  «to» := fun _ _ => h

theorem ends_nil {m : Nat} : Ends m [] where
  incr := by intro r h; cases h
  decr := by intro r h; cases h
  index := by intro s r h; cases h
  op := by intro q' r' h'; cases h'
  «to» := by intro r' h'; cases h'

theorem Ends.mono {m m' rest} (h : Ends m rest) (hm : m' ≤ m) : Ends m' rest where
  incr := h.incr
  decr := h.decr
  index := h.index
  op := fun q r hq => Nat.le_trans hm (h.op q r hq)
  «to» := fun r hr => Nat.le_trans hm (h.«to» r hr)

/-! ## Level 0 -/

theorem not_rparen {lim r e rest} : ¬ REx lim (.rparen :: r) e rest := by
  rintro ⟨N, h⟩
  have h1 := h (N + 3) (by omega)
  rw [exprEx, group] at h1
  simp only [prefixes, prefixOp] at h1
  rw [term] at h1
  simp at h1

theorem term_complete {ts t} (h : DTerm ts t)
    (ih : ∀ ts1 e rest, Derives 15 ts1 e → ts1.length < ts.length → Ends 15 rest → REx 13 (ts1 ++ rest) e rest)
    (rest : List Tok) : RTerm (ts ++ rest) t rest := by
  cases h with
  | atom =>
    refine ⟨1, fun n hn => ?_⟩
    obtain ⟨n, rfl⟩ : ∃ k, n = k + 1 := ⟨n - 1, by omega⟩
    rw [term]; rfl
  | «to» =>
    refine ⟨1, fun n hn => ?_⟩
    obtain ⟨n, rfl⟩ : ∃ k, n = k + 1 := ⟨n - 1, by omega⟩
    rw [term]; rfl
  | @paren ts1 e h =>
    have h1 := ih ts1 e (.rparen :: rest) h (by simp; omega) ends_rparen
    have hne : ∀ r, ts1 ++ (.rparen :: rest) ≠ .rparen :: r := by
      intro r heq
      rw [heq] at h1
      exact not_rparen h1
    obtain ⟨N, h1⟩ := h1
    refine ⟨N + 1, fun n hn => ?_⟩
    obtain ⟨n, rfl⟩ : ∃ k, n = k + 1 := ⟨n - 1, by omega⟩
    have h2 := h1 n (by omega)
    have e1 : .lparen :: (ts1 ++ [.rparen]) ++ rest = .lparen :: (ts1 ++ (.rparen :: rest)) := by simp
    rw [e1]
    generalize ts1 ++ (.rparen :: rest) = x at h2 hne
    rw [term]
    · simp only
      rw [h2]

theorem fol_complete (L : Nat) : ∀ {ts fs}, DFollow ts fs → ts.length < L →
    (∀ ts1 e rest, Derives 15 ts1 e → ts1.length < ts.length → Ends 15 rest → REx 13 (ts1 ++ rest) e rest) →
    ∀ rest, Ends 0 rest → RFol (ts ++ rest) fs rest := by
  induction L with
  | zero => intro ts fs _ h; omega
  | succ L IH =>
    intro ts fs h hL ih rest hr
    cases h with
    | nil =>
      refine ⟨1, fun n hn => ?_⟩
      obtain ⟨n, rfl⟩ : ∃ k, n = k + 1 := ⟨n - 1, by omega⟩
      rw [List.nil_append, follows]
      split
      · rename_i h; exact absurd h (hr.incr _)
      · rename_i h; exact absurd h (hr.decr _)
      · rename_i h; exact absurd h (hr.index _ _)
      · rfl
    | @incr ts fs h =>
      obtain ⟨N, h1⟩ := IH h (by simp at hL; omega) (fun ts1 e r h1 h2 h3 => ih ts1 e r h1 (by simp; omega) h3) rest hr
      refine ⟨N + 1, fun n hn => ?_⟩
      obtain ⟨n, rfl⟩ : ∃ k, n = k + 1 := ⟨n - 1, by omega⟩
      rw [List.cons_append, follows]
      simp only
      rw [h1 n (by omega)]
    | @decr ts fs h =>
      obtain ⟨N, h1⟩ := IH h (by simp at hL; omega) (fun ts1 e r h1 h2 h3 => ih ts1 e r h1 (by simp; omega) h3) rest hr
      refine ⟨N + 1, fun n hn => ?_⟩
      obtain ⟨n, rfl⟩ : ∃ k, n = k + 1 := ⟨n - 1, by omega⟩
      rw [List.cons_append, follows]
      simp only
      rw [h1 n (by omega)]
    | @index safe ts1 e ts fs h0 h =>
      obtain ⟨N, h1⟩ := IH h (by simp at hL; omega) (fun ts1 e r h1 h2 h3 => ih ts1 e r h1 (by simp; omega) h3) rest hr
      obtain ⟨N2, h2⟩ := ih ts1 e (.rbracket :: (ts ++ rest)) h0 (by simp; omega) ends_rbracket
      refine ⟨max N N2 + 1, fun n hn => ?_⟩
      obtain ⟨n, rfl⟩ : ∃ k, n = k + 1 := ⟨n - 1, by omega⟩
      have e1 : .lbracket safe :: (ts1 ++ (.rbracket :: ts)) ++ rest = .lbracket safe :: (ts1 ++ (.rbracket :: (ts ++ rest))) := by
        simp
      rw [e1, follows]
      simp only
      rw [h2 n (by omega)]
      simp only
      rw [h1 n (by omega)]

theorem prefixes_complete {ps os} (h : List.Forall₂ Prefix ps os) (ts : List Tok)
    (hts : ∀ t r, ts = t :: r → prefixOp t = none) : prefixes (ps ++ ts) = (os, ts) := by
  induction h with
  | nil =>
    cases ts with
    | nil => rfl
    | cons t r => simp [prefixes, hts t r rfl]
  | @cons p o ps os h1 _ ih =>
    simp [prefixes, (prefix_iff p o).2 h1, ih]

theorem term_head {ts t} (h : DTerm ts t) (rest : List Tok) : ∀ x r, ts ++ rest = x :: r → prefixOp x = none := by
  intro x r hx
  cases h <;> cases hx <;> rfl

theorem grp_complete {ts e} (h : Derives 0 ts e)
    (ih : ∀ ts1 e rest, Derives 15 ts1 e → ts1.length < ts.length → Ends 15 rest → REx 13 (ts1 ++ rest) e rest)
    (rest : List Tok) (hr : Ends 0 rest) : RGrp (ts ++ rest) e rest := by
  cases h with
  | @unary ps os ts t fts fs hp ht hf =>
    obtain ⟨N1, h1⟩ := term_complete ht (fun ts1 e r h1 h2 h3 => ih ts1 e r h1 (by simp; omega) h3) (fts ++ rest)
    obtain ⟨N2, h2⟩ := fol_complete _ hf (Nat.lt_succ_self _) (fun ts1 e r h1 h2 h3 => ih ts1 e r h1 (by simp; omega) h3) rest hr
    refine ⟨max N1 N2 + 1, fun n hn => ?_⟩
    obtain ⟨n, rfl⟩ : ∃ k, n = k + 1 := ⟨n - 1, by omega⟩
    have e1 : ps ++ (ts ++ fts) ++ rest = ps ++ (ts ++ (fts ++ rest)) := by simp
    have e2 := prefixes_complete hp (ts ++ (fts ++ rest)) (term_head ht _)
    rw [e1, group]
    simp only
    rw [e2]
    simp only
    rw [h1 n (by omega)]
    simp only
    rw [h2 n (by omega)]

/-! ## One part -/

/-- one `expression_part`, when it is not `? :` and not `in … to` -/
theorem part_plain {k : Nat} {l : Items} {t b q l'} (hl : l = (t, b, q) :: l') {tr rhs e rest}
    (hk : k ≠ 11) (hit : ∀ x ∈ l, x.2.2.strength = k ∧ ∀ rest', Reach k x.1 x.2.1 (.op x.2.2 :: rest'))
    (hr : Reach k tr rhs rest) (hb : build k l.bits l.ops rhs = .ok e) (hend : Ends (k + 1) rest) :
    RPart b q (Items.flat l' ++ (tr ++ rest)) e rest := by
  subst hl
  obtain ⟨hq, _⟩ := hit (t, b, q) (by simp)
  simp only at hq
  obtain ⟨e0, r0, ⟨N1, h1⟩, N2, h2⟩ := ploop_chain (prev := q) hq.symm l' tr rhs rest (fun x hx => hit x (by simp [hx])) hr
    (fun q r h => hend.op q r h) [b] [q.oper]
  refine ⟨max N1 N2 + 1, fun n hn => ?_⟩
  obtain ⟨n, rfl⟩ : ∃ k, n = k + 1 := ⟨n - 1, by omega⟩
  rw [part, h1 n (by omega)]
  simp only
  rw [h2 n (by omega)]
  simp only
  have e1 : [b] ++ Items.bits l' = Items.bits ((t, b, q) :: l') := rfl
  have e2 : [q.oper] ++ Items.ops l' = Items.ops ((t, b, q) :: l') := rfl
  rw [e1, e2, hq, hb, if_neg hk]
  split
  · rename_i h13
    split
    · rename_i r
      have := hend.«to» r rfl
      omega
    · rfl
  · rfl

theorem tern_complete {conds r ts x} (h : Arms conds r ts x)
    (ih : ∀ t e rest, Derives 12 t e → t.length < ts.length → Ends 12 rest → REx 11 (t ++ rest) e rest)
    (rest : List Tok) (hr : Ends 12 rest) : RTern conds r (ts ++ rest) x rest := by
  induction h with
  | nil =>
    refine ⟨1, fun n hn => ?_⟩
    obtain ⟨n, rfl⟩ : ∃ k, n = k + 1 := ⟨n - 1, by omega⟩
    rw [ternLoop]; rfl
  | @cons c conds r t e ts x h1 h2 ih' =>
    obtain ⟨N1, h3⟩ := ih' (fun t e rest h1 h2 h3 => ih t e rest h1 (by simp; omega) h3)
    have hends : Ends 12 (ts ++ rest) := by
      cases h2 with
      | nil => exact hr
      | cons => exact ends_colon
    obtain ⟨N2, h4⟩ := ih t e (ts ++ rest) h1 (by simp; omega) hends
    refine ⟨max N1 N2 + 1, fun n hn => ?_⟩
    obtain ⟨n, rfl⟩ : ∃ k, n = k + 1 := ⟨n - 1, by omega⟩
    have e1 : .colon :: (t ++ ts) ++ rest = .colon :: (t ++ (ts ++ rest)) := by simp
    rw [e1, ternLoop]
    simp only
    rw [h4 n (by omega)]
    exact h3 n (by omega)

theorem arms_head {conds r ts x} (h : Arms conds r ts x) (hne : ts ≠ []) : ∃ ts', ts = .colon :: ts' := by
  cases h with
  | nil => exact absurd rfl hne
  | cons => exact ⟨_, rfl⟩

theorem part_tern {l : Items} {t b q l'} (hl : l = (t, b, q) :: l') {tr rhs e rest tail}
    (hit : ∀ x ∈ l, x.2.2.strength = 11 ∧ ∀ rest', Reach 11 x.1 x.2.1 (.op x.2.2 :: rest'))
    (hr : Reach 11 tr rhs (tail ++ rest)) (htail : tail ≠ [])
    (ha : Arms l.bits.reverse rhs tail e)
    (ht : RTern l.bits.reverse rhs (tail ++ rest) e rest) :
    RPart b q (Items.flat l' ++ (tr ++ (tail ++ rest))) e rest := by
  subst hl
  obtain ⟨hq, _⟩ := hit (t, b, q) (by simp)
  simp only at hq
  obtain ⟨ts', hts'⟩ := arms_head ha htail
  obtain ⟨e0, r0, ⟨N1, h1⟩, N2, h2⟩ := ploop_chain (prev := q) hq.symm l' tr rhs (tail ++ rest)
    (fun x hx => hit x (by simp [hx])) hr
    (fun q r h => by rw [hts'] at h; cases h) [b] [q.oper]
  obtain ⟨N3, h3⟩ := ht
  refine ⟨max (max N1 N2) N3 + 1, fun n hn => ?_⟩
  obtain ⟨n, rfl⟩ : ∃ k, n = k + 1 := ⟨n - 1, by omega⟩
  rw [part, h1 n (by omega)]
  simp only
  rw [h2 n (by omega)]
  simp only
  have e1 : [b] ++ Items.bits l' = Items.bits ((t, b, q) :: l') := rfl
  rw [e1, hq, if_neg (by decide), if_pos rfl]
  exact h3 n (by omega)

theorem part_to {l : Items} {t b q l'} (hl : l = (t, b, q) :: l') {tr rhs c e rest t3}
    (hit : ∀ x ∈ l, x.2.2.strength = 13 ∧ ∀ rest', Reach 13 x.1 x.2.1 (.op x.2.2 :: rest'))
    (hr : Reach 13 tr rhs (.to :: (t3 ++ rest)))
    (h3 : REx 13 (t3 ++ rest) c rest) (hb : build 13 l.bits l.ops (.binary .to rhs c) = .ok e) :
    RPart b q (Items.flat l' ++ (tr ++ (.to :: (t3 ++ rest)))) e rest := by
  subst hl
  obtain ⟨hq, _⟩ := hit (t, b, q) (by simp)
  simp only at hq
  obtain ⟨e0, r0, ⟨N1, h1⟩, N2, h2⟩ := ploop_chain (prev := q) hq.symm l' tr rhs (.to :: (t3 ++ rest))
    (fun x hx => hit x (by simp [hx])) hr
    (fun q r h => by cases h) [b] [q.oper]
  obtain ⟨N3, h3⟩ := h3
  refine ⟨max (max N1 N2) N3 + 1, fun n hn => ?_⟩
  obtain ⟨n, rfl⟩ : ∃ k, n = k + 1 := ⟨n - 1, by omega⟩
  rw [part, h1 n (by omega)]
  simp only
  rw [h2 n (by omega)]
  simp only
  have e1 : [b] ++ Items.bits l' = Items.bits ((t, b, q) :: l') := rfl
  have e2 : [q.oper] ++ Items.ops l' = Items.ops ((t, b, q) :: l') := rfl
  rw [e1, e2, hq, if_pos rfl]
  rw [h3 n (by omega)]
  simp only
  rw [hb]
  rfl

/-- a chain is reached from its first operand -/
theorem reach_chain {k m : Nat} {l : Items} {e rest rest'} (hkm : k < m)
    (hit : ∀ x ∈ l, x.2.2.strength = k ∧ ∀ rest', Reach k x.1 x.2.1 (.op x.2.2 :: rest')) (hne : l ≠ [])
    (hp : ∀ t b q l', l = (t, b, q) :: l' → RPart b q (Items.flat l' ++ rest') e rest) :
    ∃ e0 r0, RGrp (l.flat ++ rest') e0 r0 ∧ Steps m e0 r0 e rest := by
  cases l with
  | nil => exact absurd rfl hne
  | cons x l' =>
    obtain ⟨t, b, q⟩ := x
    obtain ⟨hq, hx⟩ := hit (t, b, q) (by simp)
    simp only at hq hx
    obtain ⟨e0, r0, h1, h2⟩ := hx (Items.flat l' ++ rest')
    refine ⟨e0, r0, by simpa [Items.flat] using h1, ?_⟩
    exact (h2.mono (by omega)).trans (.step (by omega) (hp t b q l' rfl) .refl)

theorem complete (L : Nat) : ∀ k ts e rest, Derives k ts e → ts.length < L → Ends k rest → Reach k ts e rest := by
  induction L with
  | zero => intro k ts e rest _ h; omega
  | succ L IH =>
    have hEx : ∀ ts1 e rest, Derives 15 ts1 e → ts1.length < L → Ends 15 rest → REx 13 (ts1 ++ rest) e rest :=
      fun ts1 e rest h1 h2 h3 => ex_of_reach (IH 15 ts1 e rest h1 h2 h3) (.inr ⟨rfl, rfl⟩) h3
    have hEx' : ∀ ts1 e rest, Derives 12 ts1 e → ts1.length < L → Ends 12 rest → REx 11 (ts1 ++ rest) e rest :=
      fun ts1 e rest h1 h2 h3 => ex_of_reach (IH 12 ts1 e rest h1 h2 h3) (.inl rfl) h3
    have items : ∀ {k ts l tr r}, Chain k ts l tr r → ts.length < L + 1 →
        ∀ x ∈ l, x.2.2.strength = k ∧ ∀ rest', Reach k x.1 x.2.1 (.op x.2.2 :: rest') := by
      intro k ts l tr r hc hL x hx
      have := hc.lt.1 x hx
      obtain ⟨h1, h2⟩ := hc.ok x hx
      exact ⟨h2, fun rest' => IH k _ _ _ h1 (by omega) (ends_op (by omega))⟩
    intro k
    induction k with
    | zero =>
      intro ts e rest h hL hr
      exact ⟨e, rest, grp_complete h (fun ts1 e r h1 h2 h3 => hEx ts1 e r h1 (by omega) h3) rest hr, .refl⟩
    | succ k ih =>
      intro ts e rest h hL hr
      have lower : Derives k ts e → Reach (k + 1) ts e rest := by
        intro h
        obtain ⟨e0, r0, h1, h2⟩ := ih ts e rest h hL (hr.mono (by omega))
        exact ⟨e0, r0, h1, h2.mono (by omega)⟩
      have plain : (Derives k ts e ∨ ∃ l tr r, Chain k ts l tr r ∧ build k l.bits l.ops r = .ok e) → k ≠ 11 →
          Reach (k + 1) ts e rest := by
        intro h h11
        rcases h with h | ⟨l, tr, r, hc, hb⟩
        · exact lower h
        · have hr' : Reach k tr r rest := IH k tr r rest hc.last (by have := hc.lt.2; omega) (hr.mono (by omega))
          have := reach_chain (m := k + 1) (by omega) (items hc hL) hc.ne (rest' := tr ++ rest) (e := e) (rest := rest)
            (fun t b q l' hl => part_plain hl h11 (items hc hL) hr' hb hr)
          obtain ⟨e0, r0, h1, h2⟩ := this
          refine ⟨e0, r0, ?_, h2⟩
          rw [hc.toks, List.append_assoc]
          exact h1
      by_cases h11 : k = 11
      · subst h11
        rcases cond_chain _ ts e (Nat.lt_succ_self _) h with h | ⟨l, tr, r, ts', tail, hc, htok, htail, harms⟩
        · exact lower h
        · have hlen : ts.length = ts'.length + tail.length := by rw [htok, List.length_append]
          have htl : 0 < tail.length := List.length_pos_iff.2 htail
          obtain ⟨tl, htl'⟩ := arms_head harms htail
          have hlt := hc.lt.2
          have hr' : Reach 11 tr r (tail ++ rest) := IH 11 tr r _ hc.last (by omega) (by rw [htl']; exact ends_colon)
          have hp : 0 < ts'.length := by omega
          have hit := items hc (by omega)
          have hT := tern_complete harms (fun t e rest h1 h2 h3 => hEx' t e rest h1 (by omega) h3) rest hr
          obtain ⟨e0, r0, h1, h2⟩ := reach_chain (m := 12) (by omega) hit hc.ne (rest' := tr ++ (tail ++ rest)) (e := e)
            (rest := rest) (fun t b q l' hl => part_tern hl hit hr' htail harms hT)
          refine ⟨e0, r0, ?_, h2⟩
          rw [htok, hc.toks]
          simpa using h1
      · by_cases h12 : k = 12
        · subst h12
          exact plain (right_chain _ ts e (Nat.lt_succ_self _) h) (by decide)
        · by_cases h14 : k = 14
          · subst h14
            cases h with
            | up _ h => exact lower h
            | left h => cases h
            | @«to» t1 t2 t3 a b c ha hb hc3 =>
              simp only [List.length_append, List.length_cons] at hL
              have h3 : REx 13 (t3 ++ rest) c rest := hEx t3 c rest hc3 (by omega) hr
              have hr' : Reach 13 t2 b (.to :: (t3 ++ rest)) := IH 13 t2 b _ hb (by omega) (ends_to (by omega))
              have ⟨l, hne, hok, hlen, hfl, hbd⟩ : ∃ l : Items, l ≠ [] ∧ l.Ok 13 ∧ (∀ x ∈ l, x.1.length < L) ∧
                  l.flat = t1 ++ [.op .in_] ∧
                  build 13 l.bits l.ops (.binary .to b c) = .ok (.binary .in_ a (.binary .to b c)) := by
                rcases left_chain _ 13 t1 a (Nat.lt_succ_self _) (by decide) (by decide) (by decide) ha with
                  ha | ⟨l, tr, r, hc, hbd⟩
                · refine ⟨[(t1, a, .in_)], by simp, ?_, ?_, by simp [Items.flat], rfl⟩
                  · intro x hx
                    simp only [List.mem_singleton] at hx
                    subst hx
                    exact ⟨ha, rfl⟩
                  · intro x hx
                    simp only [List.mem_singleton] at hx
                    subst hx
                    simp only
                    omega
                · refine ⟨l ++ [(tr, r, .in_)], by simp, ?_, ?_, by rw [hc.toks]; simp [Items.flat], ?_⟩
                  · intro x hx
                    rcases List.mem_append.1 hx with hx | hx
                    · exact hc.ok x hx
                    · simp only [List.mem_singleton] at hx
                      subst hx
                      exact ⟨hc.last, rfl⟩
                  · intro x hx
                    rcases List.mem_append.1 hx with hx | hx
                    · have := hc.lt.1 x hx; omega
                    · simp only [List.mem_singleton] at hx
                      subst hx
                      have := hc.lt.2
                      simp only
                      omega
                  · have e1 : Items.bits (l ++ [(tr, r, .in_)]) = l.bits ++ [r] := by simp [Items.bits]
                    have e2 : Items.ops (l ++ [(tr, r, .in_)]) = l.ops ++ [Punct.in_.oper] := by simp [Items.ops]
                    rw [e1, e2]
                    have hlen := ops_length l
                    have hrb : rightBinding 13 = false := rfl
                    unfold build at hbd ⊢
                    rw [hrb] at hbd ⊢
                    cases hbits : l.bits with
                    | nil => rw [hbits] at hbd; cases hbd
                    | cons b0 bs =>
                      rw [hbits] at hbd hlen
                      exact buildLeft_snoc b0 bs l.ops r a (by simpa using hlen) hbd Punct.in_.oper (.binary .to b c)
              have hit : ∀ x ∈ l, x.2.2.strength = 13 ∧ ∀ rest', Reach 13 x.1 x.2.1 (.op x.2.2 :: rest') := by
                intro x hx
                obtain ⟨h1, h2⟩ := hok x hx
                exact ⟨h2, fun rest' => IH 13 _ _ _ h1 (hlen x hx) (ends_op (by omega))⟩
              obtain ⟨e0, r0, h1, h2⟩ := reach_chain (m := 15) (by omega) hit hne (rest' := t2 ++ (.to :: (t3 ++ rest)))
                (e := .binary .in_ a (.binary .to b c)) (rest := rest)
                (fun t b' q l' hl => part_to hl hit hr' h3 hbd)
              refine ⟨e0, r0, ?_, h2⟩
              rw [hfl] at h1
              simpa using h1
          · exact plain (left_chain _ k ts e (Nat.lt_succ_self _) h11 h12 h14 h) h11

end Verif.Parse
