import Verif.Sys.Exec
import Verif.Sys.Grow
/-!
# Progress: how many steps the phases of an operation take
-/
set_option autoImplicit false
namespace Radix
open T

/-- The operation has been prepared (it may hold locks), and has not been finished. -/
def Proc.prepared : Proc → Bool
  | .upd (.held _ _) => true
  | .upd (.tail _ _) => true
  | .del (.held _) => true
  | .del (.tail _ _) => true
  | .updB _ _ _ => true
  | .delB _ _ => true
  | _ => false

/-- `acts` lead from `s` to `s'`, respecting the contract and the restriction `G`, and in all states on the way `Q` holds. -/
inductive Path (env : Env) (G : Sys → Act → Prop) (Q : Sys → Prop) : Sys → List Act → Sys → Prop
  | nil {s : Sys} : Q s → Path env G Q s [] s
  | cons {s s1 s' : Sys} {act : Act} {acts : List Act} {ev : Ev} : Q s → env.Allowed s act → G s act →
      exec env.fetch s act = some (.ok (s1, ev)) → Path env G Q s1 acts s' → Path env G Q s (act :: acts) s'

theorem Path.head {env : Env} {G : Sys → Act → Prop} {Q : Sys → Prop} {s s' : Sys} {acts : List Act} (h : Path env G Q s acts s') : Q s := by
  cases h <;> assumption

theorem Proc.free_of_not_prepared {p : Proc} (h : p.prepared = false) : p.unl = .none ∧ p.tail? = none := by
  cases p with
  | upd ph => cases ph <;> first | exact ⟨rfl, rfl⟩ | cases h
  | del ph => cases ph <;> first | exact ⟨rfl, rfl⟩ | cases h
  | updB => cases h
  | delB => cases h
  | _ => exact ⟨rfl, rfl⟩

/-! ## Steps that do not take locks -/

theorem stepU_still {st st' : St} {ph ph' : UPh} (h : stepU st ph = .ok (ph', st')) (hp : ∀ f op, ph' ≠ .held f op) : st' = st := by
  cases ph with
  | start key =>
    simp only [stepU] at h
    split at h <;> (cases h; rfl)
  | root key root =>
    simp only [stepU] at h
    split at h
    · rename_i e
      unfold St.lockLeafRoot at e
      repeat' split at e
      all_goals (cases e; try (cases h; rfl))
    · obtain ⟨k, _, h⟩ := bind_ok h
      repeat' split at h
      all_goals (cases h; exact absurd rfl (hp _ _))
  | gen op =>
    simp only [stepU] at h
    obtain ⟨g, _, h⟩ := bind_ok h
    cases h; rfl
  | ptr op =>
    simp only [stepU] at h
    split at h <;> (cases h; rfl)
  | par op =>
    simp only [stepU] at h
    split at h
    · cases h; rfl
    · obtain ⟨g, _, h⟩ := bind_ok h
      split at h <;> (cases h; rfl)
  | body op =>
    simp only [stepU] at h
    obtain ⟨g, _, h⟩ := bind_ok h
    cases h; rfl
  | lock f op =>
    simp only [stepU] at h
    split at h
    · cases h; exact absurd rfl (hp _ _)
    · rename_i e
      cases h
      rcases lockNodes2_takes e with ⟨e, _⟩ | ⟨_, e⟩
      · cases e
      · exact e
  | held f op => cases h; exact absurd rfl (hp _ _)
  | tail r tl => cases h; rfl

theorem stepD_still {st st' : St} {ph ph' : DPh} (h : stepD st ph = .ok (ph', st')) (hp : ∀ cur, ph' ≠ .held cur) : st' = st := by
  cases ph with
  | start key =>
    simp only [stepD] at h
    split at h
    · cases h; rfl
    · split at h
      · obtain ⟨k, _, h⟩ := bind_ok h
        split at h <;> (cases h; rfl)
      · cases h; rfl
  | root key root =>
    simp only [stepD] at h
    split at h
    · rename_i e
      unfold St.lockLeafRoot at e
      repeat' split at e
      all_goals (cases e; try (cases h; rfl))
    · cases h; exact absurd rfl (hp _)
  | gen op =>
    simp only [stepD] at h
    obtain ⟨g, _, h⟩ := bind_ok h
    cases h; rfl
  | ptr op =>
    simp only [stepD] at h
    split at h <;> (cases h; rfl)
  | par op =>
    simp only [stepD] at h
    split at h
    · cases h; rfl
    · obtain ⟨g, _, h⟩ := bind_ok h
      split at h <;> (cases h; rfl)
  | body op =>
    simp only [stepD] at h
    obtain ⟨g, _, h⟩ := bind_ok h
    cases h; rfl
  | lock op =>
    simp only [stepD] at h
    split at h
    · cases h; exact absurd rfl (hp _)
    · rename_i e
      cases h
      rcases lockNodes2_takes e with ⟨e, _⟩ | ⟨_, e⟩
      · cases e
      · exact e
  | other cur p plen =>
    simp only [stepD] at h
    split at h
    · obtain ⟨g, _, h⟩ := bind_ok h
      cases h; rfl
    · cases h; rfl
  | cgen cur p other plen =>
    simp only [stepD] at h
    obtain ⟨g, _, h⟩ := bind_ok h
    cases h; rfl
  | cptr cur p other plen =>
    simp only [stepD] at h
    split at h <;> (cases h; rfl)
  | lock3 cur other plen =>
    simp only [stepD] at h
    split at h
    · rename_i e
      cases h
      rcases lockNodes3_takes e with ⟨e, _⟩ | ⟨_, e⟩
      · cases e
      · exact e
    · obtain ⟨_, _, h⟩ := bind_ok h
      obtain ⟨_, _, h⟩ := bind_ok h
      obtain ⟨_, _, h⟩ := bind_ok h
      cases h; exact absurd rfl (hp _)
  | miss key => cases h; rfl
  | held cur => cases h; exact absurd rfl (hp _)
  | tail r tl => cases h; rfl

/-- The tree, the blocks in use and the locks are the same. -/
structure Still (st st' : St) : Prop where
  root : st'.root = st.root
  mem : ∀ x, x / blockSlots < st.baNext → st'.mem x = st.mem x
  baNext : st'.baNext = st.baNext
  gen : ∀ n, st'.gen n = st.gen n

theorem Still.refl (st : St) : Still st st := ⟨rfl, fun _ _ => rfl, rfl, fun _ => rfl⟩

/-- As long as no operation gets prepared, the steps of operations do not change anything the others could notice. -/
theorem exec_still {fetch : Word → Key} {s s' : Sys} {act : Act} {ev : Ev} (h : exec fetch s act = some (.ok (s', ev)))
    (hq : ∀ b, (s.proc b).prepared = false) (hq' : ∀ b, (s'.proc b).prepared = false) : Still s.st s'.st := by
  have hno : ∀ {b p}, s.proc b = p → p.prepared = false := fun e => by rw [← e]; exact hq _
  cases act with
  | begin a c =>
    simp only [exec] at h
    split at h
    · split at h
      · cases h; exact .refl _
      · cases h
    · cases h
  | arm a =>
    simp only [exec] at h
    split at h
    · cases h; exact ⟨rfl, fun _ _ => rfl, rfl, fun _ => rfl⟩
    · cases h
  | run a =>
    simp only [exec] at h
    split at h
    all_goals first
      | (cases h; done)
      | (injection h with h
         obtain ⟨⟨ph', st'⟩, hr, h⟩ := bind_ok h
         cases h
         first
           | (have e := stepU_still hr (by rintro f op rfl; have := hq' a; rw [Sys.set_self] at this; cases this)
              subst e; exact .refl _)
           | (have e := stepD_still hr (by rintro cur rfl; have := hq' a; rw [Sys.set_self] at this; cases this)
              subst e; exact .refl _))
      | (injection h with h
         obtain ⟨ph', hr, h⟩ := bind_ok h
         cases h
         exact .refl _)
  | slip a => rw [exec_slip_st h]; exact .refl _
  | quit a => rw [exec_quit_st h]; exact .refl _
  | unlock a =>
    obtain ⟨_, ⟨b, tl, u, st', hp, hs, rfl⟩ | ⟨b, tl, u, st', hp, hs, rfl⟩⟩ := exec_unlock_ok h <;> cases hno hp
  | publish a v | build a v | commit a | tail a | abort a =>
    simp only [exec] at h
    split at h
    all_goals first | (cases h; done) | (rename_i e; cases hno e; done)
  | finish a =>
    simp only [exec] at h
    split at h
    all_goals first | (cases h; done) | (cases h; exact ⟨rfl, fun _ _ => rfl, rfl, fun _ => rfl⟩)
  | flush a =>
    simp only [exec] at h
    split at h
    · split at h
      · cases h; exact ⟨rfl, fun _ _ => rfl, rfl, fun _ => rfl⟩
      · cases h
    · cases h
  | block =>
    simp only [exec] at h
    injection h with h
    obtain ⟨st', e, h⟩ := bind_ok h
    cases h
    unfold St.blockStep at e
    split at e
    · cases e; exact .refl _
    · split at e
      · cases e
        refine ⟨rfl, ?_, rfl, fun _ => rfl⟩
        intro x hx
        simp only
        rw [if_neg (by omega)]
      · cases e

/-- What an operation that is not prepared yet has read stays current. -/
theorem Now.still {st st' : St} {p : Proc} (h : Now st p) (hp : p.prepared = false) (hs : Still st st') : Now st' p := by
  have hcur : ∀ {p w}, Cur st p w → Cur st' p w := fun h => h.congr hs.root hs.mem hs.baNext
  have hg := hs.gen
  cases p with
  | idle => trivial
  | arm e c => trivial
  | rd ph => trivial
  | walk => trivial
  | updB op value cm => cases hp
  | delB cur cm => cases hp
  | upd ph =>
    cases ph with
    | start => trivial
    | tail => trivial
    | root key root => exact hs.root.trans h
    | gen op => exact ⟨hcur h.1, by rw [hg]; exact h.2⟩
    | ptr op => exact ⟨hcur h.1, by rw [hg]; exact h.2.1, by rw [hg]; exact h.2.2⟩
    | par op => exact ⟨hcur h.1, by rw [hg]; exact h.2.1, by rw [hg]; exact h.2.2⟩
    | body op => exact ⟨hcur h.1, by rw [hg]; exact h.2.1, by rw [hg]; exact h.2.2⟩
    | lock f op => exact ⟨by rw [hg]; exact h.1, by rw [hg]; exact h.2.1, fun h' => hcur (h.2.2 h')⟩
    | held f op => cases hp
  | del ph =>
    cases ph with
    | start => trivial
    | tail => trivial
    | miss => trivial
    | root key root => exact hs.root.trans h
    | gen op => exact ⟨hcur h.1, by rw [hg]; exact h.2⟩
    | ptr op => exact ⟨hcur h.1, by rw [hg]; exact h.2.1, by rw [hg]; exact h.2.2⟩
    | par op => exact ⟨hcur h.1, by rw [hg]; exact h.2.1, by rw [hg]; exact h.2.2⟩
    | body op => exact ⟨hcur h.1, by rw [hg]; exact h.2.1, by rw [hg]; exact h.2.2⟩
    | lock op => exact ⟨by rw [hg]; exact h.1, by rw [hg]; exact h.2⟩
    | other cur p plen => obtain ⟨w, hw⟩ := h.2.2; exact ⟨by rw [hg]; exact h.1, by rw [hg]; exact h.2.1, w, hcur hw⟩
    | cgen cur p other plen => exact ⟨by rw [hg]; exact h.1, by rw [hg]; exact h.2.1, hcur h.2.2⟩
    | cptr cur p other plen => exact ⟨by rw [hg]; exact h.1, by rw [hg]; exact h.2.1, hcur h.2.2.1, by rw [hg]; exact h.2.2.2⟩
    | lock3 cur other plen => exact ⟨by rw [hg]; exact h.1, by rw [hg]; exact h.2.1, by rw [hg]; exact h.2.2⟩
    | held f => cases hp

/-! ## Every step brings the end nearer, or starts again -/

theorem childrenU_left {m : Mem} {op : UpdOp} {data : Slice} {ph : UPh} (h : childrenU m op data = .ok ph) :
    leftU ph < 8 * (op.key.length - op.depth) + 4 := by
  unfold childrenU at h
  obtain ⟨k, hk, h⟩ := bind_ok h
  have hlt : op.depth < op.key.length := by
    unfold keyAt at hk
    split at hk
    · rename_i e
      exact (List.getElem?_eq_some_iff.1 e).1
    · cases hk
  simp only [bind, Except.bind, pure, Except.pure] at h
  repeat' split at h
  all_goals first
    | (cases h; done)
    | (injection h with h; subst h
       simp only [leftU, UpdOp.enterNode]
       omega)

theorem bodyU_left {st : St} {op : UpdOp} {ph : UPh} (h : bodyU st op = .ok ph) : leftU ph < leftU (.body op) := by
  unfold bodyU at h
  obtain ⟨data, _, h⟩ := bind_ok h
  split at h
  · obtain ⟨⟨pfx, slots⟩, _, h⟩ := bind_ok h
    obtain ⟨r, _, h⟩ := bind_ok h
    split at h
    · obtain ⟨k, _, h⟩ := bind_ok h
      cases h
      simp only [leftU]; omega
    · obtain ⟨data', _, h⟩ := bind_ok h
      have := childrenU_left h
      simp only [leftU] at this ⊢
      omega
  · have := childrenU_left h
    simpa only [leftU] using this

/-- A step of `PrepareUpdate`. -/
theorem stepU_left {st st' : St} {ph ph' : UPh} (h : stepU st ph = .ok (ph', st')) (h1 : ∀ f op, ph ≠ .held f op) (h2 : ∀ r tl, ph ≠ .tail r tl) :
    leftU ph' < leftU ph ∨ ∃ key, ph' = .start key := by
  cases ph with
  | start key =>
    simp only [stepU] at h
    split at h <;> (cases h; simp only [leftU]; left; omega)
  | root key root =>
    simp only [stepU] at h
    split at h
    · cases h; exact .inr ⟨_, rfl⟩
    · obtain ⟨k, _, h⟩ := bind_ok h
      repeat' split at h
      all_goals (cases h; left; simp [leftU])
  | gen op =>
    simp only [stepU] at h
    obtain ⟨g, _, h⟩ := bind_ok h
    cases h; simp only [leftU]; left; omega
  | ptr op =>
    simp only [stepU] at h
    split at h
    · cases h; exact .inr ⟨_, rfl⟩
    · cases h; simp only [leftU]; left; omega
  | par op =>
    simp only [stepU] at h
    split at h
    · cases h; simp only [leftU]; left; omega
    · obtain ⟨g, _, h⟩ := bind_ok h
      split at h
      · cases h; exact .inr ⟨_, rfl⟩
      · cases h; simp only [leftU]; left; omega
  | body op =>
    simp only [stepU] at h
    obtain ⟨g, hb, h⟩ := bind_ok h
    cases h
    exact .inl (bodyU_left hb)
  | lock f op =>
    simp only [stepU] at h
    split at h
    · cases h; left; simp [leftU]
    · cases h; exact .inr ⟨_, rfl⟩
  | held f op => exact absurd rfl (h1 _ _)
  | tail r tl => exact absurd rfl (h2 _ _)

theorem childrenD_left {m : Mem} {cur : DelCur} {count plen : Nat} {data : Slice} {ph : DPh} (h : childrenD m cur count plen data = .ok ph) :
    leftD ph < 8 * (cur.key.length - cur.depth) + 5 := by
  unfold childrenD at h
  simp only [bind, Except.bind, pure, Except.pure] at h
  split at h
  · cases h; simp [leftD]
  · rename_i hlt
    repeat' split at h
    all_goals first
      | (cases h; done)
      | (injection h with h; subst h
         simp only [leftD, DelCur.enterNode]
         omega)

theorem bodyD_left {st : St} {cur : DelCur} {ph : DPh} (h : bodyD st cur = .ok ph) : leftD ph < leftD (.body cur) := by
  unfold bodyD at h
  obtain ⟨data, _, h⟩ := bind_ok h
  obtain ⟨⟨plen, slots, data'⟩, _, h⟩ := bind_ok h
  have := childrenD_left h
  simp only [leftD] at this ⊢
  omega

/-- A step of `PrepareDelete`. -/
theorem stepD_left {st st' : St} {ph ph' : DPh} (h : stepD st ph = .ok (ph', st')) (h1 : ∀ cur, ph ≠ .held cur) (h2 : ∀ r tl, ph ≠ .tail r tl)
    (h3 : ∀ key, ph ≠ .miss key) : leftD ph' < leftD ph ∨ ∃ key, ph' = .start key := by
  cases ph with
  | start key =>
    simp only [stepD] at h
    split at h
    · cases h; left; simp [leftD]
    · split at h
      · obtain ⟨k, _, h⟩ := bind_ok h
        split at h <;> (cases h; simp only [leftD]; left; omega)
      · cases h; simp only [leftD]; left; omega
  | root key root =>
    simp only [stepD] at h
    split at h
    · cases h; exact .inr ⟨_, rfl⟩
    · cases h; left; simp [leftD]
  | gen op =>
    simp only [stepD] at h
    obtain ⟨g, _, h⟩ := bind_ok h
    cases h; simp only [leftD]; left; omega
  | ptr op =>
    simp only [stepD] at h
    split at h
    · cases h; exact .inr ⟨_, rfl⟩
    · cases h; simp only [leftD]; left; omega
  | par op =>
    simp only [stepD] at h
    split at h
    · cases h; simp only [leftD]; left; omega
    · obtain ⟨g, _, h⟩ := bind_ok h
      split at h
      · cases h; exact .inr ⟨_, rfl⟩
      · cases h; simp only [leftD]; left; omega
  | body op =>
    simp only [stepD] at h
    obtain ⟨g, hb, h⟩ := bind_ok h
    cases h
    exact .inl (bodyD_left hb)
  | lock op =>
    simp only [stepD] at h
    split at h
    · cases h; left; simp [leftD]
    · cases h; exact .inr ⟨_, rfl⟩
  | other cur p plen =>
    simp only [stepD] at h
    split at h
    · obtain ⟨g, _, h⟩ := bind_ok h
      cases h; left; simp [leftD]
    · cases h; left; simp [leftD]
  | cgen cur p other plen =>
    simp only [stepD] at h
    obtain ⟨g, _, h⟩ := bind_ok h
    cases h; left; simp [leftD]
  | cptr cur p other plen =>
    simp only [stepD] at h
    split at h
    · cases h; exact .inr ⟨_, rfl⟩
    · cases h; left; simp [leftD]
  | lock3 cur other plen =>
    simp only [stepD] at h
    split at h
    · cases h; exact .inr ⟨_, rfl⟩
    · obtain ⟨_, _, h⟩ := bind_ok h
      obtain ⟨_, _, h⟩ := bind_ok h
      obtain ⟨_, _, h⟩ := bind_ok h
      cases h; left; simp [leftD]
  | miss key => exact absurd rfl (h3 _)
  | held cur => exact absurd rfl (h1 _)
  | tail r tl => exact absurd rfl (h2 _ _)

theorem leftU_pos {ph : UPh} (h1 : ∀ f op, ph ≠ .held f op) (h2 : ∀ r tl, ph ≠ .tail r tl) : 0 < leftU ph := by
  cases ph <;> first | (simp only [leftU]; omega) | exact absurd rfl (h1 _ _) | exact absurd rfl (h2 _ _)

theorem leftD_pos {ph : DPh} (h1 : ∀ cur, ph ≠ .held cur) (h2 : ∀ r tl, ph ≠ .tail r tl) (h3 : ∀ key, ph ≠ .miss key) : 0 < leftD ph := by
  cases ph <;> first | (simp only [leftD]; omega) | exact absurd rfl (h1 _) | exact absurd rfl (h2 _ _) | exact absurd rfl (h3 _)

theorem leftU_le {ph : UPh} {key : Key} (h : ph.key? = some key) : leftU ph ≤ 8 * key.length + 9 := by
  cases ph with
  | tail r tl => cases h
  | _ => simp only [UPh.key?, Option.some.injEq] at h; subst h; simp only [leftU]; omega

theorem leftD_le {ph : DPh} {key : Key} (h : ph.key? = some key) : leftD ph ≤ 8 * key.length + 9 := by
  cases ph with
  | tail r tl => cases h
  | _ => simp only [DPh.key?, Option.some.injEq] at h; subst h; simp only [leftD]; omega

/-! ## Steps of others -/

/-- While an operation is being prepared, only its own steps change its phase. -/
theorem exec_writer_proc {fetch : Word → Key} {s s' : Sys} {act : Act} {ev : Ev} (h : exec fetch s act = some (.ok (s', ev))) {a : Nat}
    (hw : (∃ ph, s.proc a = .upd ph) ∨ ∃ ph, s.proc a = .del ph) (hq : (s.proc a).prepared = false) (h1 : act ≠ .run a) (h2 : act ≠ .finish a)
    (h3 : act ≠ .slip a) : s'.proc a = s.proc a := by
  have key : ∀ {b : Nat} {st' : St} {p' : Proc}, b ≠ a → (s.set b st' p').proc a = s.proc a := fun hb => Sys.set_other _ _ _ _ (Ne.symm hb)
  cases act with
  | block =>
    simp only [exec] at h
    injection h with h
    obtain ⟨st', e, h⟩ := bind_ok h
    cases h; rfl
  | run b =>
    have hb : b ≠ a := fun e => h1 (by rw [e])
    simp only [exec] at h
    split at h
    all_goals first
      | (cases h; done)
      | (injection h with h; obtain ⟨r, _, h⟩ := bind_ok h; cases h; exact key hb)
  | begin b c | flush b =>
    simp only [exec] at h
    split at h
    · rename_i hp
      have hb : b ≠ a := by
        rintro rfl
        rcases hw with ⟨ph, hw⟩ | ⟨ph, hw⟩ <;> rw [hw] at hp <;> cases hp
      split at h
      · cases h; exact key hb
      · cases h
    · cases h
  | arm b =>
    simp only [exec] at h
    split at h
    · rename_i hp
      have hb : b ≠ a := by
        rintro rfl
        rcases hw with ⟨ph, hw⟩ | ⟨ph, hw⟩ <;> rw [hw] at hp <;> cases hp
      cases h; exact key hb
    · cases h
  | finish b =>
    have hb : b ≠ a := fun e => h2 (by rw [e])
    simp only [exec] at h
    split at h
    all_goals first | (cases h; done) | (cases h; exact key hb)
  | slip b =>
    have hb : b ≠ a := fun e => h3 (by rw [e])
    obtain ⟨_, _, ⟨ph, ph', hp, hs, rfl⟩ | ⟨ph, ph', hp, hs, rfl⟩⟩ := exec_slip_ok h <;> exact key hb
  | unlock b =>
    obtain ⟨_, ⟨r, tl, u, st', hp, hs, rfl⟩ | ⟨r, tl, u, st', hp, hs, rfl⟩⟩ := exec_unlock_ok h <;>
      exact key (by rintro rfl; rw [hp] at hq; cases hq)
  | quit b =>
    obtain ⟨_, ⟨f, op, hp, rfl⟩ | ⟨cur, hp, rfl⟩⟩ := exec_quit_ok h <;>
      exact key (by rintro rfl; rw [hp] at hq; cases hq)
  | publish b v | build b v | commit b | tail b | abort b =>
    simp only [exec] at h
    split at h
    all_goals first
      | (cases h; done)
      | (rename_i hp
         have hb : b ≠ a := by
           rintro rfl
           rw [hp] at hq
           cases hq
         first
           | (cases h; exact key hb)
           | (injection h with h; obtain ⟨r, _, h⟩ := bind_ok h; cases h; exact key hb)
           | (split at h
              · cases h
              · injection h with h; obtain ⟨r, _, h⟩ := bind_ok h; cases h; exact key hb))

/-- No operation is prepared. -/
def Sys.Unprepared (s : Sys) : Prop := ∀ b, (s.proc b).prepared = false

section
variable {env : Env} {a : Nat}

theorem run_stepU {fetch : Word → Key} {s s' : Sys} {ev : Ev} {ph : UPh} (hp : s.proc a = .upd ph)
    (h : exec fetch s (.run a) = some (.ok (s', ev))) :
    ∃ ph' st', stepU s.st ph = .ok (ph', st') ∧ s' = s.set a st' (.upd ph') ∧ (∀ f op, ph ≠ .held f op) ∧ ∀ r tl, ph ≠ .tail r tl := by
  cases ph
  case held => simp [exec, hp] at h
  case tail => simp [exec, hp] at h
  all_goals
    simp only [exec, hp] at h
    injection h with h
    obtain ⟨⟨ph', st'⟩, e, h⟩ := bind_ok h
    cases h
    exact ⟨_, _, e, rfl, by simp, by simp⟩

theorem run_stepD {fetch : Word → Key} {s s' : Sys} {ev : Ev} {ph : DPh} (hp : s.proc a = .del ph)
    (h : exec fetch s (.run a) = some (.ok (s', ev))) :
    ∃ ph' st', stepD s.st ph = .ok (ph', st') ∧ s' = s.set a st' (.del ph') ∧ (∀ cur, ph ≠ .held cur) ∧ (∀ r tl, ph ≠ .tail r tl) ∧
      ∀ key, ph ≠ .miss key := by
  cases ph
  case held => simp [exec, hp] at h
  case tail => simp [exec, hp] at h
  case miss => simp [exec, hp] at h
  all_goals
    simp only [exec, hp] at h
    injection h with h
    obtain ⟨⟨ph', st'⟩, e, h⟩ := bind_ok h
    cases h
    exact ⟨_, _, e, rfl, by simp, by simp, by simp⟩

/-- As long as no operation is prepared, an update takes a bounded number of steps. -/
theorem Path.boundU {key : Key} {s s' : Sys} {acts : List Act} (h : Path env Calm Sys.Unprepared s acts s') :
    ∀ {σ : Spec} {ph : UPh} {m : Nat}, Run env Calm s σ → s.proc a = .upd ph → ph.key? = some key →
      (Now s.st (.upd ph) ∧ leftU ph ≤ m ∨ leftU ph + (8 * key.length + 9) ≤ m) →
      acts.count (.run a) ≤ m + (16 * key.length + 18) * acts.count (.slip a) := by
  induction h with
  | nil _ => intro σ ph m _ _ _ _; simp
  | @cons s s1 s' act acts ev hq hall hcalm he hrest ih =>
    intro σ ph m hr hp hk hm
    have hr1 := Run.step hr hall hcalm he
    have hq1 := hrest.head
    by_cases hact : act = .run a
    · subst hact
      obtain ⟨ph', st', hst, rfl, n1, n2⟩ := run_stepU hp he
      have hk' : ph'.key? = some key := (stepU_key hst).trans hk
      have hpos := leftU_pos n1 n2
      rw [List.count_cons_self, List.count_cons_of_ne (by simp)]
      suffices h : Now st' (.upd ph') ∧ leftU ph' ≤ m - 1 ∨ leftU ph' + (8 * key.length + 9) ≤ m - 1 by
        have := ih hr1 (Sys.set_self ..) hk' h
        omega
      rcases hm with ⟨hN, hm⟩ | hm
      · obtain ⟨t, seen, hI⟩ := hr.inv
        have hL : Lone s a := ⟨fun b _ => Proc.free_of_not_prepared (hq b), by rw [hp]; exact hN⟩
        obtain ⟨ph2, st2, g1, g2, g3, _⟩ := stepU_now hI hL hp n1 n2
        rw [hst] at g1
        cases g1
        exact .inl ⟨g2, by omega⟩
      · rcases stepU_left hst n1 n2 with g | ⟨k, rfl⟩
        · right; omega
        · left
          refine ⟨trivial, ?_⟩
          have := leftU_le hk'
          omega
    by_cases hslip : act = .slip a
    · subst hslip
      rw [List.count_cons_self, List.count_cons_of_ne (by simp)]
      obtain ⟨_, _, ⟨ph0, ph', hp', hs, rfl⟩ | ⟨ph0, ph', hp', hs, rfl⟩⟩ := exec_slip_ok he
      · rw [hp] at hp'
        cases hp'
        have hk' : ph'.key? = some key := by
          rw [← hk]
          rcases slipU_key hs with ⟨_, _, rfl, rfl⟩ | ⟨_, rfl, _, rfl⟩ | ⟨_, rfl, _, _, ⟨_, rfl⟩ | ⟨_, rfl⟩⟩ | ⟨_, _, rfl, rfl⟩ <;> rfl
        have := ih (m := 16 * key.length + 18) hr1 (Sys.set_self ..) hk' (.inr (by have := leftU_le hk'; omega))
        rw [Nat.mul_add]
        omega
      · rw [hp] at hp'
        cases hp'
    · rw [List.count_cons_of_ne (by simpa using hact), List.count_cons_of_ne (by simpa using hslip)]
      have hfin : act ≠ .finish a := by
        rintro rfl
        simp [exec, hp] at he
      have hp1 := exec_writer_proc he (.inl ⟨_, hp⟩) (hq a) hact hfin hslip
      rw [hp] at hp1
      refine ih hr1 hp1 hk ?_
      rcases hm with ⟨hN, hm⟩ | hm
      · left
        refine ⟨hN.still ?_ (exec_still he hq hq1), hm⟩
        rw [← hp]; exact hq a
      · exact .inr hm

/-- As long as no operation is prepared, a delete takes a bounded number of steps. -/
theorem Path.boundD {key : Key} {s s' : Sys} {acts : List Act} (h : Path env Calm Sys.Unprepared s acts s') (hfin : Act.finish a ∉ acts) :
    ∀ {σ : Spec} {ph : DPh} {m : Nat}, Run env Calm s σ → s.proc a = .del ph → ph.key? = some key →
      (Now s.st (.del ph) ∧ leftD ph ≤ m ∨ leftD ph + (8 * key.length + 9) ≤ m) →
      acts.count (.run a) ≤ m + (16 * key.length + 18) * acts.count (.slip a) := by
  induction h with
  | nil _ => intro σ ph m _ _ _ _; simp
  | @cons s s1 s' act acts ev hq hall hcalm he hrest ih =>
    intro σ ph m hr hp hk hm
    have ih := @ih fun h => hfin (List.mem_cons_of_mem _ h)
    have hr1 := Run.step hr hall hcalm he
    have hq1 := hrest.head
    by_cases hact : act = .run a
    · subst hact
      obtain ⟨ph', st', hst, rfl, n1, n2, n3⟩ := run_stepD hp he
      have hk' : ph'.key? = some key := (stepD_key hst).trans hk
      have hpos := leftD_pos n1 n2 n3
      rw [List.count_cons_self, List.count_cons_of_ne (by simp)]
      suffices h : Now st' (.del ph') ∧ leftD ph' ≤ m - 1 ∨ leftD ph' + (8 * key.length + 9) ≤ m - 1 by
        have := ih hr1 (Sys.set_self ..) hk' h
        omega
      rcases hm with ⟨hN, hm⟩ | hm
      · obtain ⟨t, seen, hI⟩ := hr.inv
        have hL : Lone s a := ⟨fun b _ => Proc.free_of_not_prepared (hq b), by rw [hp]; exact hN⟩
        obtain ⟨ph2, st2, g1, g2, g3, _⟩ := stepD_now hI hL hp hcalm n1 n2 n3
        rw [hst] at g1
        cases g1
        exact .inl ⟨g2, by omega⟩
      · rcases stepD_left hst n1 n2 n3 with g | ⟨k, rfl⟩
        · right; omega
        · left
          refine ⟨trivial, ?_⟩
          have := leftD_le hk'
          omega
    by_cases hslip : act = .slip a
    · subst hslip
      rw [List.count_cons_self, List.count_cons_of_ne (by simp)]
      obtain ⟨_, _, ⟨ph0, ph', hp', hs, rfl⟩ | ⟨ph0, ph', hp', hs, rfl⟩⟩ := exec_slip_ok he
      · rw [hp] at hp'
        cases hp'
      · rw [hp] at hp'
        cases hp'
        have hk' : ph'.key? = some key := by
          rw [← hk]
          rcases slipD_key hs with ⟨_, _, rfl, rfl⟩ | ⟨_, rfl, _, rfl⟩ | ⟨_, rfl, _, _, ⟨_, rfl⟩ | ⟨_, rfl⟩⟩ | ⟨_, rfl, rfl⟩ |
            ⟨_, _, _, _, rfl, _, rfl⟩ | ⟨_, _, _, rfl, rfl⟩ <;> rfl
        have := ih (m := 16 * key.length + 18) hr1 (Sys.set_self ..) hk' (.inr (by have := leftD_le hk'; omega))
        rw [Nat.mul_add]
        omega
    · rw [List.count_cons_of_ne (by simpa using hact), List.count_cons_of_ne (by simpa using hslip)]
      have hp1 := exec_writer_proc he (.inr ⟨_, hp⟩) (hq a) hact (fun e => hfin (by rw [e]; exact List.mem_cons_self ..)) hslip
      rw [hp] at hp1
      refine ih hr1 hp1 hk ?_
      rcases hm with ⟨hN, hm⟩ | hm
      · left
        refine ⟨hN.still ?_ (exec_still he hq hq1), hm⟩
        rw [← hp]; exact hq a
      · exact .inr hm
end

/-! ## Alone -/

section
variable {env : Env} {s : Sys} {σ : Spec} {a : Nat}

/-- A step of a preparing update, with nobody holding locks, succeeds. -/
theorem run_freeU (h : Run env Calm s σ) (hf : ∀ b, b ≠ a → (s.proc b).prepared = false) {ph : UPh} (hp : s.proc a = .upd ph)
    (h1 : ∀ f op, ph ≠ .held f op) (h2 : ∀ r tl, ph ≠ .tail r tl) :
    ∃ ph' st', stepU s.st ph = .ok (ph', st') ∧ exec env.fetch s (.run a) = some (.ok (s.set a st' (.upd ph'), .none)) ∧
      Run env Calm (s.set a st' (.upd ph')) σ := by
  obtain ⟨t, seen, hI⟩ := h.inv
  have hcalm : Calm s (.run a) := by
    have hw : ∀ n, ¬ s.Window n := by
      refine lone_noWindow (a := a) (fun b hb => Proc.free_of_not_prepared (hf b hb)) ?_
      rw [hp]
      cases ph <;> first | rfl | exact absurd rfl (h2 _ _)
    simp only [Calm, hp]
    cases ph <;> first | trivial | exact fun _ _ => .inl (hw _)
  obtain ⟨ph', st', g1, _⟩ := stepU_inv hI hp hcalm h1 h2
  have he : exec env.fetch s (.run a) = some (.ok (s.set a st' (.upd ph'), .none)) := by
    cases ph <;> first
      | (simp only [exec, hp, g1, bind, Except.bind, pure, Except.pure]; done)
      | exact absurd rfl (h1 _ _)
      | exact absurd rfl (h2 _ _)
  exact ⟨ph', st', g1, he, .step h (act := .run a) trivial hcalm he⟩

/-- Locking child, node and parent does not panic. -/
theorem stepD_lock3_ok {t : T} {seen : Nat → T → Prop} (hI : Inv env s σ t seen) {cur : DelCur} {other : Word} {plen : Nat}
    (hp : s.proc a = .del (.lock3 cur other plen)) : ∃ ph' st', stepD s.st (.lock3 cur other plen) = .ok (ph', st') := by
  have hact : (s.proc a).active = true := by rw [hp]; rfl
  have hP := hI.proc a
  rw [hp] at hP
  obtain ⟨e1, e2, e3, e4, e5, q, pfx, k, k2, lk, lv, pfx2, big2, hw, hs, hm⟩ := hP
  obtain ⟨n, pfx', big, ch, hv, _, hlive⟩ := hI.mem.look hact hw.ref
  obtain ⟨n2, pfx2', big2', ch2', hv2, _, _⟩ := hI.mem.look hact hs
  have hn : cur.op.node = n := by rw [← hv.addr]; exact hw.node
  have hn2 : cur.op.child = n2 := by rw [← hv2.addr]; exact e3
  subst hn hn2
  simp only [stepD]
  split
  · exact ⟨_, _, rfl⟩
  · rename_i st' e
    have hst : st'.mem = s.st.mem ∧ st'.nblocks = s.st.nblocks := by
      rcases lockNodes3_takes e with ⟨_, h, _⟩ | ⟨h, _⟩
      · rw [h]; exact ⟨rfl, rfl⟩
      · cases h
    have a1 := hv.append []
    have a2 := hv2.append ([] ++ pfx' ++ [keyByte other])
    have a3 : st'.nodeData cur.op.child = .ok ⟨cur.op.child, blockSlots - cur.op.child % blockSlots⟩ := by
      rw [← nodeData_view hv2]
      unfold St.nodeData
      rw [hst.2]
    have a1 : appendPrefix s.st.mem [] ⟨cur.op.node, blockSlots - cur.op.node % blockSlots⟩ (nodePlen cur.op.raw) = _ := a1
    simp only [e5, e4, hst.1, bind, Except.bind]
    rw [a1]
    simp only
    rw [a3]
    simp only
    rw [a2]
    exact ⟨_, _, rfl⟩

/-- A step of a preparing delete, with nobody holding locks, succeeds. -/
theorem run_freeD (h : Run env Calm s σ) (hf : ∀ b, b ≠ a → (s.proc b).prepared = false) {ph : DPh} (hp : s.proc a = .del ph)
    (h1 : ∀ cur, ph ≠ .held cur) (h2 : ∀ r tl, ph ≠ .tail r tl) (h3 : ∀ key, ph ≠ .miss key) :
    ∃ ph' st', stepD s.st ph = .ok (ph', st') ∧ exec env.fetch s (.run a) = some (.ok (s.set a st' (.del ph'), .none)) ∧
      ((∃ cur, ph' = .held cur) ∨ Run env Calm (s.set a st' (.del ph')) σ) := by
  obtain ⟨t, seen, hI⟩ := h.inv
  have hexec : ∀ {ph' st'}, stepD s.st ph = .ok (ph', st') → exec env.fetch s (.run a) = some (.ok (s.set a st' (.del ph'), .none)) := by
    intro ph' st' g1
    cases ph <;> first
      | (simp only [exec, hp, g1, bind, Except.bind, pure, Except.pure]; done)
      | exact absurd rfl (h1 _)
      | exact absurd rfl (h2 _ _)
      | exact absurd rfl (h3 _)
  by_cases hcalm : Calm s (.run a)
  · obtain ⟨ph', st', g1, _⟩ := stepD_inv hI hp hcalm h1 h2 h3
    exact ⟨ph', st', g1, hexec g1, .inr (.step h (act := .run a) trivial hcalm (hexec g1))⟩
  · have hw : ∀ n, ¬ s.Window n := by
      refine lone_noWindow (a := a) (fun b hb => Proc.free_of_not_prepared (hf b hb)) ?_
      rw [hp]
      cases ph <;> first | rfl | exact absurd rfl (h2 _ _)
    cases ph
    case lock3 cur other plen =>
      obtain ⟨ph', st', g1⟩ := stepD_lock3_ok hI hp
      refine ⟨ph', st', g1, hexec g1, .inl ?_⟩
      simp only [Calm, hp] at hcalm
      simp only [stepD] at g1
      split at g1
      · rename_i e
        exact absurd (fun h => by rw [e] at h; cases h) hcalm
      · obtain ⟨_, _, g1⟩ := bind_ok g1
        obtain ⟨_, _, g1⟩ := bind_ok g1
        obtain ⟨_, _, g1⟩ := bind_ok g1
        cases g1
        exact ⟨_, rfl⟩
    case par cur =>
      refine absurd ?_ hcalm
      simp only [Calm, hp]
      exact fun _ _ => .inl (hw _)
    all_goals
      refine absurd ?_ hcalm
      simp only [Calm, hp]

/-- With nobody holding locks, an update is prepared after a bounded number of its own steps. -/
theorem run_soloU {key : Key} : ∀ (m : Nat) {s : Sys} {σ : Spec} {ph : UPh}, Run env Calm s σ → (∀ b, b ≠ a → (s.proc b).prepared = false) →
    s.proc a = .upd ph → ph.key? = some key → (Now s.st (.upd ph) ∧ leftU ph ≤ m ∨ leftU ph + (8 * key.length + 9) ≤ m) →
    ∃ n s', n ≤ m ∧ execs env.fetch s (List.replicate n (.run a)) = some s' ∧ Run env Calm s' σ ∧
      (∃ found op, s'.proc a = .upd (.held found op) ∧ op.key = key) ∧ (∀ b, b ≠ a → s'.proc b = s.proc b) := by
  intro m
  induction m with
  | zero =>
    intro s σ ph h hf hp hk hm
    cases ph with
    | held f op => exact ⟨0, s, by simp, rfl, h, ⟨f, op, hp, by simpa [UPh.key?] using hk⟩, fun _ _ => rfl⟩
    | tail r tl => cases hk
    | _ => simp [leftU] at hm
  | succ m ih =>
    intro s σ ph h hf hp hk hm
    by_cases hh : ∃ f op, ph = .held f op
    · obtain ⟨f, op, rfl⟩ := hh
      exact ⟨0, s, by simp, rfl, h, ⟨f, op, hp, by simpa [UPh.key?] using hk⟩, fun _ _ => rfl⟩
    · have n1 : ∀ f op, ph ≠ .held f op := fun f op e => hh ⟨f, op, e⟩
      have n2 : ∀ r tl, ph ≠ .tail r tl := by rintro r tl rfl; cases hk
      obtain ⟨ph', st', hst, he, hr⟩ := run_freeU h hf hp n1 n2
      have hk' : ph'.key? = some key := (stepU_key hst).trans hk
      have hpos := leftU_pos n1 n2
      have hm' : Now st' (.upd ph') ∧ leftU ph' ≤ m ∨ leftU ph' + (8 * key.length + 9) ≤ m := by
        rcases hm with ⟨hN, hm⟩ | hm
        · obtain ⟨t, seen, hI⟩ := h.inv
          have hL : Lone s a := ⟨fun b hb => Proc.free_of_not_prepared (hf b hb), by rw [hp]; exact hN⟩
          obtain ⟨ph2, st2, g1, g2, g3, _⟩ := stepU_now hI hL hp n1 n2
          rw [hst] at g1
          cases g1
          exact .inl ⟨g2, by omega⟩
        · rcases stepU_left hst n1 n2 with g | ⟨k, rfl⟩
          · right; omega
          · left
            refine ⟨trivial, ?_⟩
            have := leftU_le hk'
            omega
      obtain ⟨n, s', i1, i2, i3, i4, i5⟩ := ih hr (fun b hb => by rw [Sys.set_other _ _ _ _ hb]; exact hf b hb) (Sys.set_self ..) hk' hm'
      refine ⟨n + 1, s', by omega, by rw [List.replicate_succ, execs_one he]; exact i2, i3, i4, ?_⟩
      intro b hb
      rw [i5 b hb, Sys.set_other _ _ _ _ hb]

/-- With nobody holding locks, a delete has found its answer after a bounded number of its own steps. -/
theorem run_soloD {key : Key} : ∀ (m : Nat) {s : Sys} {σ : Spec} {ph : DPh}, Run env Calm s σ → (∀ b, b ≠ a → (s.proc b).prepared = false) →
    s.proc a = .del ph → ph.key? = some key → (Now s.st (.del ph) ∧ leftD ph ≤ m ∨ leftD ph + (8 * key.length + 9) ≤ m) →
    ∃ n s', n ≤ m ∧ execs env.fetch s (List.replicate n (.run a)) = some s' ∧
      ((∃ cur, s'.proc a = .del (.held cur) ∧ cur.key = key) ∨ s'.proc a = .del (.miss key)) ∧ (∀ b, b ≠ a → s'.proc b = s.proc b) := by
  intro m
  have done : ∀ {m : Nat} {s : Sys} {ph : DPh}, s.proc a = .del ph → ph.key? = some key →
      ((∃ cur, ph = .held cur) ∨ ∃ k, ph = .miss k) →
      ∃ n s', n ≤ m ∧ execs env.fetch s (List.replicate n (.run a)) = some s' ∧
      ((∃ cur, s'.proc a = .del (.held cur) ∧ cur.key = key) ∨ s'.proc a = .del (.miss key)) ∧ (∀ b, b ≠ a → s'.proc b = s.proc b) := by
    rintro m s ph hp hk (⟨cur, rfl⟩ | ⟨k, rfl⟩)
    · exact ⟨0, s, by simp, rfl, .inl ⟨cur, hp, by simpa [DPh.key?] using hk⟩, fun _ _ => rfl⟩
    · refine ⟨0, s, by simp, rfl, .inr ?_, fun _ _ => rfl⟩
      simp only [DPh.key?, Option.some.injEq] at hk
      rw [hp, hk]
  induction m with
  | zero =>
    intro s σ ph h hf hp hk hm
    cases ph with
    | held cur => exact done hp hk (.inl ⟨_, rfl⟩)
    | miss k => exact done hp hk (.inr ⟨_, rfl⟩)
    | tail r tl => cases hk
    | _ => simp [leftD] at hm
  | succ m ih =>
    intro s σ ph h hf hp hk hm
    by_cases hh : (∃ cur, ph = .held cur) ∨ ∃ k, ph = .miss k
    · exact done hp hk hh
    · have n1 : ∀ cur, ph ≠ .held cur := fun cur e => hh (.inl ⟨cur, e⟩)
      have n2 : ∀ r tl, ph ≠ .tail r tl := by rintro r tl rfl; cases hk
      have n3 : ∀ k, ph ≠ .miss k := fun k e => hh (.inr ⟨k, e⟩)
      obtain ⟨ph', st', hst, he, hr⟩ := run_freeD h hf hp n1 n2 n3
      have hk' : ph'.key? = some key := (stepD_key hst).trans hk
      have hoth : ∀ b, b ≠ a → (s.set a st' (.del ph')).proc b = s.proc b := fun b hb => Sys.set_other _ _ _ _ hb
      suffices hgoal : ∃ n s', n ≤ m ∧ execs env.fetch (s.set a st' (.del ph')) (List.replicate n (.run a)) = some s' ∧
          ((∃ cur, s'.proc a = .del (.held cur) ∧ cur.key = key) ∨ s'.proc a = .del (.miss key)) ∧
          (∀ b, b ≠ a → s'.proc b = (s.set a st' (.del ph')).proc b) by
        obtain ⟨n, s', i1, i2, i4, i5⟩ := hgoal
        refine ⟨n + 1, s', by omega, by rw [List.replicate_succ, execs_one he]; exact i2, i4, ?_⟩
        intro b hb
        rw [i5 b hb, hoth b hb]
      rcases hr with ⟨cur, rfl⟩ | hr
      · exact done (Sys.set_self ..) hk' (.inl ⟨_, rfl⟩)
      · refine ih hr (fun b hb => by rw [hoth b hb]; exact hf b hb) (Sys.set_self ..) hk' ?_
        have hpos := leftD_pos n1 n2 n3
        have hl : leftD ph' < leftD ph ∨ ∃ key, ph' = .start key := stepD_left hst n1 n2 n3
        rcases hm with ⟨hN, hm⟩ | hm
        · obtain ⟨t, seen, hI⟩ := h.inv
          have hL : Lone s a := ⟨fun b hb => Proc.free_of_not_prepared (hf b hb), by rw [hp]; exact hN⟩
          have hcalm : Calm s (.run a) := by
            have hw : ∀ n, ¬ s.Window n := by
              refine lone_noWindow (a := a) hL.free ?_
              rw [hp]
              cases ph <;> first | rfl | exact absurd rfl (n2 _ _)
            simp only [Calm, hp]
            cases ph <;> first | trivial | exact fun _ _ => .inl (hw _) | exact fun _ => ⟨hN.1, hN.2.1⟩
          obtain ⟨ph2, st2, g1, g2, g3, _⟩ := stepD_now hI hL hp hcalm n1 n2 n3
          rw [hst] at g1
          cases g1
          exact .inl ⟨g2, by omega⟩
        · rcases hl with g | ⟨k, rfl⟩
          · right; omega
          · left
            refine ⟨trivial, ?_⟩
            have := leftD_le hk'
            omega
end

end Radix
