import Verif.Parse.Mono
import Mathlib.Data.List.Forall2

/-! # What is parsed is in the grammar -/

namespace Verif.Parse

theorem prefix_iff (t : Tok) (o : UnaryOp) : prefixOp t = some o ↔ Prefix t o := by
  constructor
  · intro h
    unfold prefixOp at h
    split at h <;> cases h <;> constructor
  · intro h; cases h <;> rfl

theorem prefixes_spec (ts : List Tok) : ∃ ps, List.Forall₂ Prefix ps (prefixes ts).1 ∧ ts = ps ++ (prefixes ts).2 := by
  induction ts with
  | nil => exact ⟨[], .nil, rfl⟩
  | cons t ts ih =>
    obtain ⟨ps, h1, h2⟩ := ih
    unfold prefixes
    cases h : prefixOp t with
    | none => exact ⟨[], .nil, rfl⟩
    | some o =>
      refine ⟨t :: ps, .cons ((prefix_iff t o).1 h) h1, ?_⟩
      simp only [List.cons_append, List.cons.injEq, true_and]
      exact h2

theorem strength_le (p : Punct) : p.strength ≤ 13 := by cases p <;> decide

theorem leftOp_of (p : Punct) (h1 : p.strength ≠ 11) (h2 : p.strength ≠ 12) :
    ∃ o, LeftOp (p.strength + 1) p o ∧ p.oper = .binary o := by
  cases p <;> first
    | exact ⟨_, by constructor, rfl⟩
    | exact absurd rfl h1
    | exact absurd rfl h2

theorem rightOp_of (p : Punct) (h : p.strength = 12) : ∃ o, RightOp p o ∧ p.oper = .assign o := by
  cases p <;> first
    | exact ⟨_, by constructor, rfl⟩
    | exact absurd h (by decide)

theorem question_of (p : Punct) (h : p.strength = 11) : p = .questionMark := by
  cases p <;> first
    | rfl
    | exact absurd h (by decide)

theorem in_of (p : Punct) (h : p.strength = 13) : p = .in_ := by
  cases p <;> first
    | rfl
    | exact absurd h (by decide)

theorem ups {k m : Nat} {ts : List Tok} {e : Expr} (h : Derives k ts e) (hkm : k ≤ m) (hm : m ≤ 15) : Derives m ts e := by
  induction m with
  | zero =>
    have : k = 0 := by omega
    exact this ▸ h
  | succ m ih =>
    rcases Nat.eq_or_lt_of_le hkm with rfl | h'
    · exact h
    · exact .up (by omega) (ih (by omega) (by omega))

/-- the next operator, if any, is weaker than `s` -/
def NextGt (s : Nat) (ts : List Tok) : Prop := ∀ p r, ts = .op p :: r → s < p.strength

/-- the next operator, if any, is not tighter than level `k` -/
def NextGe (k : Nat) (ts : List Tok) : Prop := ∀ p r, ts = .op p :: r → k ≤ p.strength

/-- the level of everything up to a strength -/
def top (lim : Nat) : Nat := if lim = 13 then 15 else lim + 1

/-- tokens were used, and if there was no warning then `P` -/
def Uses (st st' : St) (P : List Tok → Prop) : Prop :=
  ∃ ts, st.toks = ts ++ st'.toks ∧ (st'.warned = false → st.warned = false ∧ P ts)

/-! ## Chains of operators of one strength -/

/-- operands, each with the operator after it -/
abbrev Items := List (List Tok × Expr × Punct)

def Items.Ok (k : Nat) (l : Items) : Prop := ∀ x ∈ l, Derives k x.1 x.2.1 ∧ x.2.2.strength = k
def Items.flat (l : Items) : List Tok := l.flatMap fun x => x.1 ++ [.op x.2.2]
def Items.bits (l : Items) : List Expr := l.map (·.2.1)
def Items.ops (l : Items) : List Op := l.map (·.2.2.oper)

theorem buildLeft_sound (k : Nat) (hk : k ≠ 11) (hk' : k ≠ 12) (l : Items) (hl : l.Ok k) (acc : Expr) (ta : List Tok)
    (p : Punct) (hp : p.strength = k) (ha : Derives (k + 1) ta acc) (rhs e : Expr)
    (h : buildLeft acc l.bits (p.oper :: l.ops) rhs = .ok e) :
    ∃ a t q o, LeftOp (k + 1) q o ∧ Derives (k + 1) t a ∧ e = .binary o a rhs ∧
      ta ++ (.op p :: l.flat) = t ++ [.op q] := by
  induction l generalizing acc ta p with
  | nil =>
    obtain ⟨o, ho, hop⟩ := leftOp_of p (by omega) (by omega)
    simp only [Items.bits, Items.ops, List.map_nil, buildLeft, hop, Op.build] at h
    cases h
    exact ⟨acc, ta, p, o, hp ▸ ho, ha, rfl, rfl⟩
  | cons x l ih =>
    obtain ⟨t, b, q⟩ := x
    obtain ⟨o, ho, hop⟩ := leftOp_of p (by omega) (by omega)
    simp only [Items.bits, Items.ops, List.map_cons, buildLeft, hop, Op.build] at h
    have hx := hl (t, b, q) (by simp)
    obtain ⟨a, t', q', o', h1, h2, h3, h4⟩ := ih (fun y hy => hl y (by simp [hy])) (.binary o acc b)
      (ta ++ (.op p :: t)) q hx.2 (.left (hp ▸ ho) ha hx.1) h
    refine ⟨a, t', q', o', h1, h2, h3, ?_⟩
    rw [← h4]
    simp [Items.flat]

theorem buildRight_sound (l : Items) (hl : l.Ok 12) (tr : List Tok) (rhs e : Expr) (hr : Derives 13 tr rhs)
    (h : buildRight (l.ops.zip l.bits) rhs = .ok e) : Derives 13 (l.flat ++ tr) e := by
  induction l generalizing e with
  | nil =>
    simp only [Items.bits, Items.ops, List.map_nil, List.zip_nil_left, buildRight] at h
    cases h
    exact hr
  | cons x l ih =>
    obtain ⟨t, b, q⟩ := x
    have hx := hl (t, b, q) (by simp)
    obtain ⟨o, ho, hop⟩ := rightOp_of q hx.2
    simp only [Items.bits, Items.ops, List.map_cons, List.zip_cons_cons, buildRight] at h
    cases he : buildRight ((Items.ops l).zip (Items.bits l)) rhs with
    | error e' =>
      simp only [Items.bits, Items.ops] at he
      rw [he] at h; cases h
    | ok e' =>
      have h1 := ih (fun y hy => hl y (by simp [hy])) e' he
      simp only [Items.bits, Items.ops] at he
      rw [he, hop] at h
      simp only [Op.build] at h
      cases h
      have := Derives.assign ho hx.1 h1
      simpa [Items.flat] using this

/-- conditions before a `?`, the nearest first -/
def wrap : List (List Tok) → List Tok → List Tok
  | [], x => x
  | c :: cs, x => wrap cs (c ++ (.op .questionMark :: x))

theorem wrap_append (cs : List (List Tok)) (x y : List Tok) : wrap cs x ++ y = wrap cs (x ++ y) := by
  induction cs generalizing x with
  | nil => rfl
  | cons c cs ih => simp [wrap, ih]

theorem wrap_items (l : Items) (hl : ∀ x ∈ l, x.2.2 = .questionMark) (x : List Tok) :
    wrap (l.map (·.1)).reverse x = l.flat ++ x := by
  induction l with
  | nil => rfl
  | cons y l ih =>
    have hy := hl y (by simp)
    have h2 : ∀ (cs : List (List Tok)) (c x : List Tok), wrap (cs ++ [c]) x = c ++ (.op .questionMark :: wrap cs x) := by
      intro cs
      induction cs with
      | nil => intro c x; rfl
      | cons d cs ih => intro c x; simp [wrap, ih]
    rw [List.map_cons, List.reverse_cons, h2, ih (fun z hz => hl z (by simp [hz]))]
    simp [Items.flat, hy]

theorem sound (n : Nat) :
    (∀ st t st', term n st = .ok (some t, st') → Uses st st' (DTerm · t)) ∧
    (∀ st fs st', follows n st = .ok (fs, st') → Uses st st' (DFollow · fs)) ∧
    (∀ st e st', group n st = .ok (some e, st') → Uses st st' (Derives 0 · e)) ∧
    (∀ lim st e st', exprEx n lim st = .ok (some e, st') → lim = 13 ∨ lim = 11 →
      Uses st st' (fun ts => Derives (top lim) ts e ∧ NextGt lim st'.toks)) ∧
    (∀ lim e0 st e st', exLoop n lim e0 st = .ok (e, st') → lim = 13 ∨ lim = 11 →
      Uses st st' (fun ts => ∀ k t0, Derives k t0 e0 → k ≤ top lim → NextGe k st.toks →
        Derives (top lim) (t0 ++ ts) e ∧ NextGt lim st'.toks)) ∧
    (∀ lhs p st e st', part n lhs p st = .ok (e, st') →
      Uses st st' (fun ts => ∀ t0, Derives p.strength t0 lhs →
        Derives (top p.strength) (t0 ++ (.op p :: ts)) e ∧ NextGt p.strength st'.toks)) ∧
    (∀ prev bits ops rhs st bits' ops' rhs' st', partLoop n prev bits ops rhs st = .ok ((bits', ops', rhs'), st') →
      Uses st st' (fun ts => ∀ (l : Items) kr tr, l.Ok prev.strength → bits = l.bits → ops = l.ops →
        Derives kr tr rhs → kr ≤ prev.strength → NextGe kr st.toks →
        ∃ (l' : Items) (tr' : List Tok), l'.Ok prev.strength ∧ bits' = l'.bits ∧ ops' = l'.ops ∧
          Derives prev.strength tr' rhs' ∧ l.flat ++ (tr ++ ts) = l'.flat ++ tr' ∧ NextGt prev.strength st'.toks ∧
          ∃ l'', l' = l ++ l'')) ∧
    (∀ conds r st e st', ternLoop n conds r st = .ok (e, st') →
      Uses st st' (fun ts => ∀ cs tr, List.Forall₂ (Derives 11) cs conds → Derives 12 tr r →
        Derives 12 (wrap cs tr ++ ts) e ∧ (conds ≠ [] ∨ NextGt 11 st.toks → NextGt 11 st'.toks))) := by
  induction n with
  | zero =>
    refine ⟨?_, ?_, ?_, ?_, ?_, ?_, ?_, ?_⟩ <;> intros <;> rename_i h <;> exfalso
    · unfold term at h; cases h
    · unfold follows at h; cases h
    · unfold group at h; cases h
    · rename_i h' ; unfold exprEx at h'; cases h'
    · rename_i h' ; unfold exLoop at h'; cases h'
    · unfold part at h; cases h
    · unfold partLoop at h; cases h
    · unfold ternLoop at h; cases h
  | succ n ih =>
    obtain ⟨hterm, hfol, hgrp, hex, hloop, hpart, hploop, htern⟩ := ih
    refine ⟨?_, ?_, ?_, ?_, ?_, ?_, ?_, ?_⟩
    · intro st t st' h
      rw [term] at h
      split at h
      · rename_i a r heq
        cases h
        exact ⟨[.atom a], heq, fun hw => ⟨hw, .atom⟩⟩
      · rename_i r heq
        cases h
        exact ⟨[.to], heq, fun hw => ⟨hw, .to⟩⟩
      · rename_i r heq
        cases h
        exact ⟨[.lparen, .rparen], heq, fun hw => by cases hw⟩
      · rename_i r _ heq
        cases hr : exprEx n 13 ⟨r, st.warned⟩ with
        | error e => rw [hr] at h; cases h
        | ok x =>
          obtain ⟨o, st1⟩ := x
          rw [hr] at h
          cases o with
          | none => cases h
          | some e =>
            simp only at h
            split at h
            · rename_i r' heq'
              cases h
              obtain ⟨ts, h1, h2⟩ := hex 13 _ _ _ hr (Or.inl rfl)
              simp only at h1 h2
              refine ⟨.lparen :: (ts ++ [.rparen]), ?_, fun hw => ?_⟩
              · rw [heq, h1, heq']; simp
              · obtain ⟨h3, h4, _⟩ := h2 hw
                exact ⟨h3, .paren h4⟩
            · cases h
      · cases h
    · intro st fs st' h
      rw [follows] at h
      split at h
      · rename_i r heq
        cases hr : follows n ⟨r, st.warned⟩ with
        | error e => rw [hr] at h; cases h
        | ok x =>
          rw [hr] at h
          cases h
          obtain ⟨ts, h1, h2⟩ := hfol _ _ _ hr
          simp only at h1 h2
          refine ⟨.plusPlus :: ts, by rw [heq, h1]; rfl, fun hw => ⟨(h2 hw).1, .incr (h2 hw).2⟩⟩
      · rename_i r heq
        cases hr : follows n ⟨r, st.warned⟩ with
        | error e => rw [hr] at h; cases h
        | ok x =>
          rw [hr] at h
          cases h
          obtain ⟨ts, h1, h2⟩ := hfol _ _ _ hr
          simp only at h1 h2
          refine ⟨.minusMinus :: ts, by rw [heq, h1]; rfl, fun hw => ⟨(h2 hw).1, .decr (h2 hw).2⟩⟩
      · rename_i safe r heq
        cases hr : exprEx n 13 ⟨r, st.warned⟩ with
        | error e => rw [hr] at h; cases h
        | ok x =>
          obtain ⟨o, st1⟩ := x
          rw [hr] at h
          cases o with
          | none => cases h
          | some e =>
            simp only at h
            split at h
            · rename_i r' heq'
              cases hr2 : follows n ⟨r', st1.warned⟩ with
              | error e => rw [hr2] at h; cases h
              | ok x =>
                rw [hr2] at h
                cases h
                obtain ⟨ts, h1, h2⟩ := hex 13 _ _ _ hr (Or.inl rfl)
                obtain ⟨ts2, h3, h4⟩ := hfol _ _ _ hr2
                simp only at h1 h2 h3 h4
                refine ⟨.lbracket safe :: (ts ++ (.rbracket :: ts2)), ?_, fun hw => ?_⟩
                · rw [heq, h1, heq', h3]; simp
                · obtain ⟨h5, h6⟩ := h4 hw
                  obtain ⟨h7, h8, _⟩ := h2 h5
                  exact ⟨h7, .index h8 h6⟩
            · cases h
      · cases h
        exact ⟨[], rfl, fun hw => ⟨hw, .nil⟩⟩
    · intro st e st' h
      rw [group] at h
      cases hr : term n ⟨(prefixes st.toks).2, st.warned⟩ with
      | error e => rw [hr] at h; cases h
      | ok x =>
        obtain ⟨o, st1⟩ := x
        rw [hr] at h
        cases o with
        | none =>
          simp only at h
          split at h <;> cases h
        | some t =>
          simp only at h
          cases hr2 : follows n st1 with
          | error e => rw [hr2] at h; cases h
          | ok x =>
            rw [hr2] at h
            cases h
            obtain ⟨ts, h1, h2⟩ := hterm _ _ _ hr
            obtain ⟨ts2, h3, h4⟩ := hfol _ _ _ hr2
            obtain ⟨ps, h5, h6⟩ := prefixes_spec st.toks
            simp only at h1 h2
            refine ⟨ps ++ (ts ++ ts2), ?_, fun hw => ?_⟩
            · conv => lhs; rw [h6, h1, h3]
              simp
            · obtain ⟨h7, h8⟩ := h4 hw
              obtain ⟨h9, h10⟩ := h2 h7
              exact ⟨h9, .unary h5 h10 h8⟩
    · intro lim st e st' h hlim
      rw [exprEx] at h
      cases hr : group n st with
      | error e => rw [hr] at h; cases h
      | ok x =>
        obtain ⟨o, st1⟩ := x
        rw [hr] at h
        cases o with
        | none => cases h
        | some e0 =>
          simp only at h
          cases hr2 : exLoop n lim e0 st1 with
          | error e => rw [hr2] at h; cases h
          | ok x =>
            rw [hr2] at h
            cases h
            obtain ⟨ts, h1, h2⟩ := hgrp _ _ _ hr
            obtain ⟨ts2, h3, h4⟩ := hloop _ _ _ _ _ hr2 hlim
            refine ⟨ts ++ ts2, by rw [h1, h3, List.append_assoc], fun hw => ?_⟩
            obtain ⟨h5, h6⟩ := h4 hw
            obtain ⟨h7, h8⟩ := h2 h5
            exact ⟨h7, h6 0 ts h8 (by omega) (fun p r _ => by omega)⟩
    · intro lim e0 st e st' h hlim
      have htop : top lim ≤ 15 := by rcases hlim with rfl | rfl <;> decide
      rw [exLoop] at h
      split at h
      · rename_i p r heq
        split at h
        · rename_i hgt
          cases h
          refine ⟨[], rfl, fun hw => ⟨hw, fun k t0 hd hk _ => ?_⟩⟩
          rw [List.append_nil]
          refine ⟨ups hd hk htop, fun p' r' h' => ?_⟩
          rw [heq] at h'
          cases h'
          exact hgt
        · rename_i hle
          cases hr : part n e0 p ⟨r, st.warned⟩ with
          | error e => rw [hr] at h; cases h
          | ok x =>
            obtain ⟨e1, st1⟩ := x
            rw [hr] at h
            simp only at h
            obtain ⟨ts, h1, h2⟩ := hpart _ _ _ _ _ hr
            obtain ⟨ts2, h3, h4⟩ := hloop _ _ _ _ _ h hlim
            simp only at h1 h2
            refine ⟨.op p :: (ts ++ ts2), by rw [heq, h1, h3]; simp, fun hw => ?_⟩
            obtain ⟨h5, h6⟩ := h4 hw
            obtain ⟨h7, h8⟩ := h2 h5
            refine ⟨h7, fun k t0 hd hk hnx => ?_⟩
            have hkp : k ≤ p.strength := hnx p r heq
            have hp13 := strength_le p
            obtain ⟨h9, h10⟩ := h8 t0 (ups hd hkp (by omega))
            have htp : top p.strength ≤ top lim := by
              unfold top
              split_ifs <;> omega
            have := h6 (top p.strength) _ h9 htp (fun q r' hq => by
              have h11 := h10 q r' hq
              have h12 := strength_le q
              unfold top
              split_ifs <;> omega)
            simpa using this
      · rename_i hno
        cases h
        refine ⟨[], rfl, fun hw => ⟨hw, fun k t0 hd hk _ => ?_⟩⟩
        rw [List.append_nil]
        exact ⟨ups hd hk htop, fun p' r' h' => absurd h' (hno p' r')⟩
    · intro lhs p st e st' h
      rw [part] at h
      cases hr : group n st with
      | error e => rw [hr] at h; cases h
      | ok x =>
        obtain ⟨o, st1⟩ := x
        rw [hr] at h
        cases o with
        | none => cases h
        | some rhs =>
          simp only at h
          cases hr2 : partLoop n p [lhs] [p.oper] rhs st1 with
          | error e => rw [hr2] at h; cases h
          | ok x =>
            obtain ⟨⟨bits, ops, rhs'⟩, st2⟩ := x
            rw [hr2] at h
            simp only at h
            obtain ⟨ts, h1, h2⟩ := hgrp _ _ _ hr
            obtain ⟨ts2, h3, h4⟩ := hploop _ _ _ _ _ _ _ _ _ hr2
            -- the chain
            have key : st2.warned = false → st.warned = false ∧ ∀ t0, Derives p.strength t0 lhs →
                ∃ (l : Items) (tr' : List Tok), l.Ok p.strength ∧ bits = lhs :: l.bits ∧ ops = p.oper :: l.ops ∧
                  Derives p.strength tr' rhs' ∧ t0 ++ (.op p :: (ts ++ ts2)) = t0 ++ (.op p :: (l.flat ++ tr')) ∧
                  NextGt p.strength st2.toks := by
              intro hw
              obtain ⟨h5, h6⟩ := h4 hw
              obtain ⟨h7, h8⟩ := h2 h5
              refine ⟨h7, fun t0 hd => ?_⟩
              obtain ⟨l', tr', g1, g2, g3, g4, g5, g6, l'', g7⟩ := h6 [(t0, lhs, p)] 0 ts
                (by intro x hx; simp only [List.mem_singleton] at hx; subst hx; exact ⟨hd, rfl⟩) rfl rfl h8
                (by omega) (fun p r _ => by omega)
              subst g7
              refine ⟨l'', tr', fun x hx => g1 x (by simp [hx]), ?_, ?_, g4, ?_, g6⟩
              · rw [g2]; rfl
              · rw [g3]; rfl
              · simpa [Items.flat] using g5
            split at h
            · rename_i h13
              have hin := in_of p h13
              split at h
              · rename_i r heq
                cases hr3 : exprEx n 13 ⟨r, st2.warned⟩ with
                | error e => rw [hr3] at h; cases h
                | ok x =>
                  obtain ⟨o, st3⟩ := x
                  rw [hr3] at h
                  cases o with
                  | none => cases h
                  | some e3 =>
                    simp only at h
                    obtain ⟨ts3, h5, h6⟩ := hex 13 _ _ _ hr3 (Or.inl rfl)
                    simp only at h5 h6
                    cases hb : build p.strength bits ops (.binary .to rhs' e3) with
                    | error e => rw [hb] at h; cases h
                    | ok e4 =>
                      rw [hb] at h
                      simp only [withSt] at h
                      cases h
                      refine ⟨ts ++ (ts2 ++ (.to :: ts3)), by rw [h1, h3, heq, h5]; simp, fun hw => ?_⟩
                      obtain ⟨h7, h8, h9⟩ := h6 hw
                      obtain ⟨h10, h11⟩ := key h7
                      refine ⟨h10, fun t0 hd => ?_⟩
                      obtain ⟨l, tr', g1, g2, g3, g4, g5, g6⟩ := h11 t0 hd
                      subst hin
                      unfold build at hb
                      rw [if_neg (by decide), g2, g3] at hb
                      simp only at hb
                      obtain ⟨a, t, q, o, f1, f2, f3, f4⟩ := buildLeft_sound 13 (by decide) (by decide) l g1 lhs t0 .in_ rfl
                        (.up (by omega) hd) _ _ hb
                      cases f1
                      subst f3
                      have g5' : t0 ++ (.op .in_ :: (ts ++ (ts2 ++ (.to :: ts3)))) = t ++ (.op .in_ :: (tr' ++ (.to :: ts3))) := by
                        have e1 : t0 ++ (.op .in_ :: (ts ++ (ts2 ++ (.to :: ts3)))) =
                            (t0 ++ (.op .in_ :: (ts ++ ts2))) ++ (.to :: ts3) := by simp
                        rw [e1, g5]
                        have e2 : t0 ++ (.op .in_ :: (l.flat ++ tr')) = (t0 ++ (.op .in_ :: l.flat)) ++ tr' := by simp
                        rw [e2, f4]
                        simp
                      refine ⟨?_, h9⟩
                      rw [g5']
                      exact .to f2 g4 h8
              · cases hb : build p.strength bits ops rhs' with
                | error e => rw [hb] at h; cases h
                | ok e4 =>
                  rw [hb] at h
                  simp only [withSt] at h
                  cases h
                  refine ⟨ts ++ ts2, by rw [h1, h3]; simp, fun hw => ?_⟩
                  obtain ⟨h10, h11⟩ := key hw
                  refine ⟨h10, fun t0 hd => ?_⟩
                  obtain ⟨l, tr', g1, g2, g3, g4, g5, g6⟩ := h11 t0 hd
                  subst hin
                  unfold build at hb
                  rw [if_neg (by decide), g2, g3] at hb
                  simp only at hb
                  obtain ⟨a, t, q, o, f1, f2, f3, f4⟩ := buildLeft_sound 13 (by decide) (by decide) l g1 lhs t0 .in_ rfl
                    (.up (by omega) hd) _ _ hb
                  subst f3
                  refine ⟨?_, g6⟩
                  rw [g5]
                  have e2 : t0 ++ (.op .in_ :: (l.flat ++ tr')) = (t0 ++ (.op .in_ :: l.flat)) ++ tr' := by simp
                  rw [e2, f4, List.append_assoc]
                  exact .up (by omega) (.left f1 f2 g4)
            · rename_i h13
              split at h
              · rename_i h11
                have hq := question_of p h11
                obtain ⟨ts3, h5, h6⟩ := htern _ _ _ _ _ h
                refine ⟨ts ++ (ts2 ++ ts3), by rw [h1, h3, h5]; simp, fun hw => ?_⟩
                obtain ⟨h7, h8⟩ := h6 hw
                obtain ⟨h10, h11'⟩ := key h7
                refine ⟨h10, fun t0 hd => ?_⟩
                obtain ⟨l, tr', g1, g2, g3, g4, g5, g6⟩ := h11' t0 hd
                subst hq
                have hall : ∀ x ∈ ((t0, lhs, Punct.questionMark) :: l : Items), x.2.2 = .questionMark := by
                  intro x hx
                  rcases List.mem_cons.1 hx with rfl | hx
                  · rfl
                  · exact question_of _ (g1 x hx).2
                have hfor : List.Forall₂ (Derives 11) ((((t0, lhs, Punct.questionMark) :: l : Items).map (·.1)).reverse) bits.reverse := by
                  rw [List.forall₂_reverse_iff, g2]
                  refine .cons hd ?_
                  unfold Items.bits
                  rw [List.forall₂_map_left_iff, List.forall₂_map_right_iff, List.forall₂_same]
                  exact fun x hx => (g1 x hx).1
                obtain ⟨f1, f2⟩ := h8 _ tr' hfor (.up (by omega) g4)
                refine ⟨?_, f2 (Or.inl (by rw [g2]; simp))⟩
                rw [wrap_items _ hall] at f1
                have e1 : t0 ++ (.op .questionMark :: (ts ++ (ts2 ++ ts3))) =
                    (t0 ++ (.op .questionMark :: (ts ++ ts2))) ++ ts3 := by simp
                rw [e1, g5]
                change Derives 12 _ _
                simpa [Items.flat] using f1
              · rename_i h11
                cases hb : build p.strength bits ops rhs' with
                | error e => rw [hb] at h; cases h
                | ok e4 =>
                  rw [hb] at h
                  simp only [withSt] at h
                  cases h
                  refine ⟨ts ++ ts2, by rw [h1, h3]; simp, fun hw => ?_⟩
                  obtain ⟨h10, h11'⟩ := key hw
                  refine ⟨h10, fun t0 hd => ?_⟩
                  obtain ⟨l, tr', g1, g2, g3, g4, g5, g6⟩ := h11' t0 hd
                  refine ⟨?_, g6⟩
                  rw [g5]
                  have htop : top p.strength = p.strength + 1 := by unfold top; rw [if_neg h13]
                  rw [htop]
                  unfold build at hb
                  by_cases h12 : p.strength = 12
                  · rw [if_pos (by rw [h12]; rfl)] at hb
                    rw [h12] at g1 g4 hd ⊢
                    rw [g2, g3] at hb
                    have := buildRight_sound ((t0, lhs, p) :: l)
                      (by
                        intro x hx
                        rcases List.mem_cons.1 hx with rfl | hx
                        · exact ⟨hd, h12⟩
                        · exact g1 x hx) tr' rhs' _ (.up (by omega) g4) hb
                    simpa [Items.flat] using this
                  · rw [if_neg (by simpa [rightBinding] using h12), g2, g3] at hb
                    simp only at hb
                    have := strength_le p
                    obtain ⟨a, t, q, o, f1, f2, f3, f4⟩ := buildLeft_sound p.strength h11 h12 l g1 lhs t0 p rfl
                      (.up (by omega) hd) _ _ hb
                    subst f3
                    have e2 : t0 ++ (.op p :: (l.flat ++ tr')) = (t0 ++ (.op p :: l.flat)) ++ tr' := by simp
                    rw [e2, f4, List.append_assoc]
                    exact .left f1 f2 g4
    · intro prev bits ops rhs st bits' ops' rhs' st' h
      have hp13 := strength_le prev
      rw [partLoop] at h
      split at h
      · rename_i p r heq
        split at h
        · rename_i hlt
          cases hr : part n rhs p ⟨r, st.warned⟩ with
          | error e => rw [hr] at h; cases h
          | ok x =>
            obtain ⟨e1, st1⟩ := x
            rw [hr] at h
            simp only at h
            obtain ⟨ts, h1, h2⟩ := hpart _ _ _ _ _ hr
            obtain ⟨ts2, h3, h4⟩ := hploop _ _ _ _ _ _ _ _ _ h
            simp only at h1 h2
            refine ⟨.op p :: (ts ++ ts2), by rw [heq, h1, h3]; simp, fun hw => ?_⟩
            obtain ⟨h5, h6⟩ := h4 hw
            obtain ⟨h7, h8⟩ := h2 h5
            refine ⟨h7, fun l kr tr hl hb ho hd hk hnx => ?_⟩
            have hkp : kr ≤ p.strength := hnx p r heq
            obtain ⟨h9, h10⟩ := h8 tr (ups hd hkp (by omega))
            have htop : top p.strength = p.strength + 1 := by unfold top; rw [if_neg (by omega)]
            rw [htop] at h9
            obtain ⟨l', tr', g1, g2, g3, g4, g5, g6, g7⟩ := h6 l _ _ hl hb ho h9 (by omega) h10
            refine ⟨l', tr', g1, g2, g3, g4, ?_, g6, g7⟩
            rw [← g5]
            simp
        · split at h
          · rename_i hlt hgt
            cases h
            refine ⟨[], rfl, fun hw => ⟨hw, fun l kr tr hl hb ho hd hk _ => ?_⟩⟩
            refine ⟨l, tr, hl, hb, ho, ups hd hk (by omega), by simp, ?_, [], by simp⟩
            intro p' r' h'
            rw [heq] at h'
            cases h'
            exact hgt
          · rename_i hlt hgt
            cases hr : group n ⟨r, st.warned⟩ with
            | error e => rw [hr] at h; cases h
            | ok x =>
              obtain ⟨o, st1⟩ := x
              rw [hr] at h
              cases o with
              | none => cases h
              | some e1 =>
                simp only at h
                obtain ⟨ts, h1, h2⟩ := hgrp _ _ _ hr
                obtain ⟨ts2, h3, h4⟩ := hploop _ _ _ _ _ _ _ _ _ h
                simp only at h1 h2
                refine ⟨.op p :: (ts ++ ts2), by rw [heq, h1, h3]; simp, fun hw => ?_⟩
                obtain ⟨h5, h6⟩ := h4 hw
                obtain ⟨h7, h8⟩ := h2 h5
                refine ⟨h7, fun l kr tr hl hb ho hd hk hnx => ?_⟩
                have hps : p.strength = prev.strength := by omega
                obtain ⟨l', tr', g1, g2, g3, g4, g5, g6, l'', g7⟩ := h6 (l ++ [(tr, rhs, p)]) 0 ts
                  (by
                    intro x hx
                    rcases List.mem_append.1 hx with hx | hx
                    · exact hl x hx
                    · simp only [List.mem_singleton] at hx
                      subst hx
                      exact ⟨ups hd hk (by omega), hps⟩)
                  (by rw [hb]; simp [Items.bits]) (by rw [ho]; simp [Items.ops]) h8 (by omega) (fun p r _ => by omega)
                refine ⟨l', tr', g1, g2, g3, g4, ?_, g6, (tr, rhs, p) :: l'', by rw [g7]; simp⟩
                rw [← g5]
                simp [Items.flat]
      · rename_i hno
        cases h
        refine ⟨[], rfl, fun hw => ⟨hw, fun l kr tr hl hb ho hd hk _ => ?_⟩⟩
        exact ⟨l, tr, hl, hb, ho, ups hd hk (by omega), by simp, fun p' r' h' => absurd h' (hno p' r'), [], by simp⟩
    · intro conds r st e st' h
      cases conds with
      | nil =>
        rw [ternLoop] at h
        cases h
        refine ⟨[], rfl, fun hw => ⟨hw, fun cs tr hc hd => ?_⟩⟩
        cases hc
        rw [List.append_nil]
        exact ⟨hd, fun hx => hx.resolve_left (by simp)⟩
      | cons c conds =>
        rw [ternLoop] at h
        split at h
        · rename_i r' heq
          cases hr : exprEx n 11 ⟨r', st.warned⟩ with
          | error e => rw [hr] at h; cases h
          | ok x =>
            obtain ⟨o, st1⟩ := x
            rw [hr] at h
            cases o with
            | none =>
              simp only at h
              obtain ⟨ts2, h3, h4⟩ := htern _ _ _ _ _ h
              simp only at h3 h4
              have hlen : ∃ ts1, r' = ts1 ++ st1.toks := by
                cases n with
                | zero => unfold exprEx at hr; cases hr
                | succ n =>
                  rw [exprEx] at hr
                  cases hg : group n ⟨r', st.warned⟩ with
                  | error e => rw [hg] at hr; cases hr
                  | ok x =>
                    obtain ⟨o, st2⟩ := x
                    rw [hg] at hr
                    cases o with
                    | some e0 =>
                      simp only at hr
                      cases hl : exLoop n 11 e0 st2 with
                      | error e => rw [hl] at hr; cases hr
                      | ok x => rw [hl] at hr; cases hr
                    | none =>
                      cases hr
                      cases n with
                      | zero => unfold group at hg; cases hg
                      | succ n =>
                        rw [group] at hg
                        cases ht : term n ⟨(prefixes r').2, st.warned⟩ with
                        | error e => rw [ht] at hg; cases hg
                        | ok x =>
                          obtain ⟨o, st3⟩ := x
                          rw [ht] at hg
                          cases o with
                          | none =>
                            simp only at hg
                            split at hg
                            · cases hg; exact ⟨[], rfl⟩
                            · cases hg
                          | some t =>
                            simp only at hg
                            cases hf : follows n st3 with
                            | error e => rw [hf] at hg; cases hg
                            | ok x => rw [hf] at hg; cases hg
              obtain ⟨ts1, h1⟩ := hlen
              refine ⟨.colon :: (ts1 ++ ts2), by rw [heq, h1, h3]; simp, fun hw => ?_⟩
              have := (h4 hw).1
              cases this
            | some e1 =>
              simp only at h
              obtain ⟨ts, h1, h2⟩ := hex 11 _ _ _ hr (Or.inr rfl)
              obtain ⟨ts2, h3, h4⟩ := htern _ _ _ _ _ h
              simp only at h1 h2
              refine ⟨.colon :: (ts ++ ts2), by rw [heq, h1, h3]; simp, fun hw => ?_⟩
              obtain ⟨h5, h6⟩ := h4 hw
              obtain ⟨h7, h8, h9⟩ := h2 h5
              refine ⟨h7, fun cs tr hc hd => ?_⟩
              cases hc with
              | cons hc1 hc2 =>
                rename_i tc cs
                obtain ⟨g1, g2⟩ := h6 cs _ hc2 (.cond hc1 hd h8)
                refine ⟨?_, fun _ => g2 (Or.inr h9)⟩
                rw [wrap, wrap_append]
                rw [wrap_append] at g1
                simpa using g1
        · cases h

end Verif.Parse
