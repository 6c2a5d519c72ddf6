import Verif.Run
/-
  Equations for single instructions: how a call, read or write that succeeds continues, and what an instruction
  that continues must have done.
-/

set_option linter.unusedVariables false

namespace Cnd
variable {σ : Type}

section
variable {E : Env σ} {s : St σ} {r : Res σ}

theorem callScalar_ok {key : Nat} {op : Byte} {n : Nat} {v w : Word} {h : σ} {k : St σ → Word → Res σ}
    (e : E.host.scalar s.host key op v = (true, w, h)) (hk : k { s with host := h } (truncB n w) = r) :
    callScalar E s key op n v k = r := by
  unfold callScalar; rw [e]; exact hk

theorem callNotify_ok {key : Nat} {op : Byte} {h : σ} {k : St σ → Res σ}
    (e : E.host.notify s.host key op = (true, h)) (hk : k { s with host := h } = r) :
    callNotify E s key op k = r := by
  unfold callNotify; rw [e]; exact hk

theorem callAt_ok {key : Nat} {op : Byte} {p : Nat} {h : σ} {k bad : St σ → Res σ}
    (e : E.host.bytesAt s.host key op s.be s.buf p = (true, s.buf, h)) (hk : k { s with host := h } = r) :
    callAt E s key op p k bad = r := by
  unfold callAt; rw [e]; simpa [hostBuf_self] using hk

theorem rdAt_ok {p n : Nat} {bs : List Byte} {k : Word → Res σ} (e : slice s.buf p n = some bs)
    (hk : k (rdWord s.be bs) = r) : rdAt s p n k = r := by
  unfold rdAt; rw [e]; exact hk

theorem wrAt_ok {p n : Nat} {w : Word} {b : List Byte} {k : St σ → Res σ}
    (e : store s.buf p (wrBytes s.be n w) = some b) (hk : k { s with buf := b } = r) : wrAt s p n w k = r := by
  unfold wrAt; rw [e]; exact hk

theorem wrRaw_ok {p : Nat} {bs b : List Byte} {k : St σ → Res σ}
    (e : store s.buf p bs = some b) (hk : k { s with buf := b } = r) : wrRaw s p bs k = r := by
  unfold wrRaw; rw [e]; exact hk

theorem putBits_ok {v : Word} {n : Nat} {b : List Byte} {c o : Nat} {k : St σ → Res σ}
    (e : writeBits s.buf s.be s.cursor s.bit v n = some (b, c, o))
    (hk : k { s with buf := b, cursor := c, bit := o } = r) : putBits s v n k = r := by
  unfold putBits; rw [e]; exact hk

theorem getBits_ok {v : Word} {n : Nat} {c o : Nat} {k : Word → St σ → Res σ}
    (e : readBits s.buf s.be s.cursor s.bit n = some (v, c, o))
    (hk : k v { s with cursor := c, bit := o } = r) : getBits s n k = r := by
  unfold getBits; rw [e]; exact hk

theorem push_ok {v : Word} (h : s.stack.length < maxDepth) : push s v = .run { s with stack := v :: s.stack } := by
  unfold push; rw [if_neg (by omega)]

theorem goto_ok {base t : Nat} {off : Word} (h : branch E.prog.length base off = some t) :
    goto E s base off = .run { s with ip := t } := by
  unfold goto; rw [h]
end

section
variable {E : Env σ} {s s1 : St σ}

theorem callScalar_run {key : Nat} {op : Byte} {n : Nat} {v : Word} {k : St σ → Word → Res σ}
    (hs : callScalar E s key op n v k = .run s1) :
    ∃ w h, E.host.scalar s.host key op v = (true, w, h) ∧ k { s with host := h } (truncB n w) = .run s1 := by
  unfold callScalar at hs
  cases h : E.host.scalar s.host key op v with
  | mk r wh =>
    obtain ⟨w, h'⟩ := wh
    cases r <;> simp [h] at hs
    exact ⟨w, h', rfl, hs⟩

theorem callNotify_run {key : Nat} {op : Byte} {k : St σ → Res σ} (hs : callNotify E s key op k = .run s1) :
    ∃ h, E.host.notify s.host key op = (true, h) ∧ k { s with host := h } = .run s1 := by
  unfold callNotify at hs
  cases h : E.host.notify s.host key op with
  | mk r h' =>
    cases r <;> simp [h] at hs
    exact ⟨h', rfl, hs⟩

theorem wrAt_run {p n : Nat} {w : Word} {k : St σ → Res σ} (hs : wrAt s p n w k = .run s1) :
    ∃ b, store s.buf p (wrBytes s.be n w) = some b ∧ k { s with buf := b } = .run s1 := by
  unfold wrAt at hs
  split at hs
  · cases hs
  · rename_i b h; exact ⟨b, h, hs⟩

theorem wrRaw_run {p : Nat} {bs : List Byte} {k : St σ → Res σ} (hs : wrRaw s p bs k = .run s1) :
    ∃ b, store s.buf p bs = some b ∧ k { s with buf := b } = .run s1 := by
  unfold wrRaw at hs
  split at hs
  · cases hs
  · rename_i b h; exact ⟨b, h, hs⟩

theorem rdAt_run {p n : Nat} {k : Word → Res σ} (hs : rdAt s p n k = .run s1) :
    ∃ bs, slice s.buf p n = some bs ∧ k (rdWord s.be bs) = .run s1 := by
  unfold rdAt at hs
  split at hs
  · cases hs
  · rename_i b h; exact ⟨b, h, hs⟩

theorem putBits_run {v : Word} {n : Nat} {k : St σ → Res σ} (hs : putBits s v n k = .run s1) :
    ∃ b c o, writeBits s.buf s.be s.cursor s.bit v n = some (b, c, o) ∧
      k { s with buf := b, cursor := c, bit := o } = .run s1 := by
  unfold putBits at hs
  split at hs
  · cases hs
  · rename_i b c o h; exact ⟨b, c, o, h, hs⟩

theorem push_run {v : Word} (hs : push s v = .run s1) :
    s.stack.length < maxDepth ∧ s1 = { s with stack := v :: s.stack } := by
  unfold push at hs
  split at hs
  · cases hs
  · rename_i h; injection hs with hs; exact ⟨by omega, hs.symm⟩

theorem goto_run {base : Nat} {off : Word} (hs : goto E s base off = .run s1) :
    ∃ t, branch E.prog.length base off = some t ∧ s1 = { s with ip := t } := by
  unfold goto at hs
  split at hs
  · cases hs
  · rename_i t h; injection hs with hs; exact ⟨t, h, hs.symm⟩
end

/-! ### Scalars -/

/-- Opcode the host sees for a field under the pending transform. -/
def viewOp (op : Byte) : Trans → Byte
  | .none => op
  | .scale | .poly | .spline => 0x19
  | _ => 0x17

def primDbl (E : Env σ) (t : Ty) (raw : Word) : Word :=
  if t = .u64 then E.fl.ofU64 raw else E.fl.ofI64 (t.toI64 raw)

/-- Host value to raw wire value of an integer field under the pending transform. -/
def primRaw (E : Env σ) (t : Ty) (s : St σ) (w : Word) : Option Word :=
  match s.trans with
  | .none => some w
  | .scale => E.fl.toTy t (E.fl.div (E.fl.sub w s.fOffset) s.fFactor)
  | .poly => E.fl.toTy t (polySolve E.fl (doublesAt E.prog s.polyPos s.polyCnt) w 20 0)
  | .spline => E.fl.toTy t (splineSolve E.fl w (doublesAt E.prog s.splPos (2 * s.splCnt)))
  | tr => intToRaw tr s.iVal w

/-- Raw wire value to host value. -/
def primEng (E : Env σ) (t : Ty) (s : St σ) (raw : Word) : Option Word :=
  match s.trans with
  | .none => some raw
  | .scale => some (E.fl.add (E.fl.mul (primDbl E t raw) s.fFactor) s.fOffset)
  | .poly => some (polyEval E.fl (doublesAt E.prog s.polyPos s.polyCnt) (primDbl E t raw))
  | .spline => some (splineEval E.fl (primDbl E t raw) (doublesAt E.prog s.splPos (2 * s.splCnt)))
  | tr => intToEng tr s.iVal (t.toI64 raw)

/-- Cell size of the host call for an integer field. -/
def viewSize (t : Ty) : Trans → Nat
  | .none => t.size
  | _ => 8

/-- Condition under which the polynomial and spline tables of a pending transform can be read. -/
def TabOK (E : Env σ) (s : St σ) : Prop :=
  (s.trans = .poly → s.polyPos + 8 * s.polyCnt ≤ E.prog.length) ∧
  (s.trans = .spline → s.splPos + 16 * s.splCnt ≤ E.prog.length)

theorem handlePrim_enc {E : Env σ} (henc : E.enc = true) {t : Ty} {op : Byte} {s s1 : St σ}
    (hfit : s.cursor + t.size ≤ s.buf.length) (hs : handlePrim E t op s = .run s1) :
    ∃ w h v b, E.host.scalar s.host (fetch E.prog s.ip 2).1.toNat (viewOp op s.trans) 0 = (true, w, h) ∧
      primRaw E t s (truncB (viewSize t s.trans) w) = some v ∧ TabOK E s ∧
      store s.buf s.cursor (wrBytes s.be t.size v) = some b ∧
      s1 = { s with ip := (fetch E.prog s.ip 2).2, host := h, buf := b, trans := .none,
                    cursor := s.cursor + t.size, opt := false } := by
  unfold handlePrim fet at hs
  simp only [henc, if_true] at hs
  rw [if_neg (by omega)] at hs
  unfold primRaw TabOK viewOp viewSize
  cases htr : s.trans <;> simp only [htr] at hs ⊢ <;> (try split at hs) <;> (try cases hs; done)
  all_goals
    obtain ⟨w, h, e1, hs⟩ := callScalar_run hs
    dsimp only at e1 hs
  all_goals try
    (split at hs
     · cases hs
     rename_i v hv
     obtain ⟨b, e2, hs⟩ := wrAt_run hs
     injection hs with hs
     refine ⟨w, h, v, b, e1, hv, ⟨?_, ?_⟩, e2, hs.symm⟩ <;> intro hh <;> first | omega | cases hh)
  obtain ⟨b, e2, hs⟩ := wrAt_run hs
  injection hs with hs
  refine ⟨w, h, _, b, e1, rfl, ⟨?_, ?_⟩, e2, hs.symm⟩ <;> intro hh <;> cases hh

theorem handlePrim_dec {E : Env σ} (henc : E.enc = false) {t : Ty} {op : Byte} {s : St σ} {bs : List Byte}
    {eng w : Word} {h : σ} (htab : TabOK E s) (hsl : slice s.buf s.cursor t.size = some bs)
    (heng : primEng E t s (rdWord s.be bs) = some eng)
    (hcall : E.host.scalar s.host (fetch E.prog s.ip 2).1.toNat (viewOp op s.trans) eng = (true, w, h)) :
    handlePrim E t op s = .run
      { s with ip := (fetch E.prog s.ip 2).2, host := h, trans := .none, cursor := s.cursor + t.size,
               opt := false } := by
  have hfit := (slice_eq_some.1 hsl).1
  unfold handlePrim fet
  simp only [henc, Bool.false_eq_true, if_false]
  rw [if_neg (by omega)]
  unfold primEng at heng
  unfold TabOK at htab
  unfold viewOp at hcall
  cases htr : s.trans <;> simp only [htr] at heng hcall htab ⊢ <;> (try rw [if_neg (by simp at htab; omega)])
  all_goals refine rdAt_ok hsl ?_
  all_goals try
    (injection heng with heng
     subst heng
     exact callScalar_ok hcall rfl)
  all_goals
    (simp only [heng]
     exact callScalar_ok hcall rfl)

theorem truncB_idem (n : Nat) (w : Word) : truncB n (truncB n w) = truncB n w := by
  apply BitVec.eq_of_toNat_eq
  rw [toNat_truncB, toNat_truncB, Nat.mod_mod]


/-! ### Floats -/

def floatSize (dbl : Bool) : Nat := if dbl then 8 else 4

def floatOp (op : Byte) : Trans → Byte
  | .none => op
  | .scale => 0x19
  | _ => 0x17

/-- Cell size of the host call for a float field. -/
def floatCell (dbl : Bool) : Trans → Nat
  | .none => floatSize dbl
  | _ => 8

/-- Host value to raw wire value of a float field under the pending transform. -/
def floatRaw (E : Env σ) (dbl : Bool) (s : St σ) (w : Word) : Option Word :=
  match s.trans with
  | .none => some w
  | .scale =>
    let d := E.fl.div (E.fl.sub w s.fOffset) s.fFactor
    some (if dbl then d else (E.fl.toF32 d).setWidth 64)
  | tr => match intToRaw tr s.iVal w with
    | none => none
    | some i => some (if dbl then E.fl.ofI64 i else (E.fl.f32ofI64 i).setWidth 64)

/-- Raw wire value to host value. -/
def floatEng (E : Env σ) (dbl : Bool) (s : St σ) (raw : Word) : Option Word :=
  match s.trans with
  | .none => some raw
  | .scale =>
    some (E.fl.add (E.fl.mul (if dbl then raw else E.fl.ofF32 (raw.setWidth 32)) s.fFactor) s.fOffset)
  | tr => match (if dbl then E.fl.toTy .i64 raw else E.fl.f32toI64 (raw.setWidth 32)) with
    | none => none
    | some r => intToEng tr s.iVal r

theorem handleFloat_enc {E : Env σ} (henc : E.enc = true) {dbl : Bool} {op : Byte} {s s1 : St σ}
    (hfit : s.cursor + floatSize dbl ≤ s.buf.length) (hs : handleFloat E dbl op s = .run s1) :
    ∃ w h v b, E.host.scalar s.host (fetch E.prog s.ip 2).1.toNat (floatOp op s.trans) 0 = (true, w, h) ∧
      floatRaw E dbl s (truncB (floatCell dbl s.trans) w) = some v ∧
      store s.buf s.cursor (wrBytes s.be (floatSize dbl) v) = some b ∧
      s1 = { s with ip := (fetch E.prog s.ip 2).2, host := h, buf := b, trans := .none,
                    cursor := s.cursor + floatSize dbl, opt := false } := by
  unfold handleFloat fet at hs
  have hsz : (if dbl = true then 8 else 4) = floatSize dbl := rfl
  simp only [henc, if_true, hsz] at hs
  rw [if_neg (by omega)] at hs
  unfold floatRaw floatOp floatCell
  cases htr : s.trans <;> simp only [htr] at hs ⊢
  all_goals
    obtain ⟨w, h, e1, hs⟩ := callScalar_run hs
    dsimp only at e1 hs
  all_goals try
    (split at hs
     · cases hs
     rename_i v hv
     obtain ⟨b, e2, hs⟩ := wrAt_run hs
     injection hs with hs
     exact ⟨w, h, _, b, e1, by rw [hv], e2, hs.symm⟩)
  all_goals
    (obtain ⟨b, e2, hs⟩ := wrAt_run hs
     injection hs with hs
     exact ⟨w, h, _, b, e1, rfl, e2, hs.symm⟩)

theorem handleFloat_dec {E : Env σ} (henc : E.enc = false) {dbl : Bool} {op : Byte} {s : St σ}
    {bs : List Byte} {eng w : Word} {h : σ} (hsl : slice s.buf s.cursor (floatSize dbl) = some bs)
    (heng : floatEng E dbl s (rdWord s.be bs) = some eng)
    (hcall : E.host.scalar s.host (fetch E.prog s.ip 2).1.toNat (floatOp op s.trans) eng = (true, w, h)) :
    handleFloat E dbl op s = .run
      { s with ip := (fetch E.prog s.ip 2).2, host := h, trans := .none,
               cursor := s.cursor + floatSize dbl, opt := false } := by
  have hfit := (slice_eq_some.1 hsl).1
  unfold handleFloat fet
  have hsz : (if dbl = true then 8 else 4) = floatSize dbl := rfl
  simp only [henc, Bool.false_eq_true, if_false, hsz]
  rw [if_neg (by omega)]
  unfold floatEng at heng
  unfold floatOp at hcall
  cases htr : s.trans <;> simp only [htr] at heng hcall ⊢
  all_goals refine rdAt_ok hsl ?_
  all_goals try
    (injection heng with heng
     subst heng
     exact callScalar_ok hcall rfl)
  all_goals
    split at heng
    · cases heng
    rename_i r hr
    simp only [hr, heng]
    exact callScalar_ok hcall rfl

/-! ### Booleans -/

theorem handleBool_enc {E : Env σ} (henc : E.enc = true) {op : Byte} {s s1 : St σ}
    (hfit : s.cursor + 1 ≤ s.buf.length) (hs : handleBool E op s = .run s1) :
    ∃ w h b, E.host.scalar s.host (fetch E.prog s.ip 2).1.toNat op 0 = (true, w, h) ∧
      (truncB 1 w).toNat ≤ 1 ∧ store s.buf s.cursor (wrBytes s.be 1 (truncB 1 w)) = some b ∧
      s1 = { s with ip := (fetch E.prog s.ip 2).2, host := h, buf := b, cursor := s.cursor + 1,
                    opt := false } := by
  unfold handleBool fet at hs
  simp only [henc, if_true] at hs
  rw [if_neg (by omega)] at hs
  obtain ⟨w, h, e1, hs⟩ := callScalar_run hs
  split at hs
  · cases hs
  obtain ⟨b, e2, hs⟩ := wrAt_run hs
  injection hs with hs
  exact ⟨w, h, b, e1, by omega, e2, hs.symm⟩

theorem handleBool_dec {E : Env σ} (henc : E.enc = false) {op : Byte} {s : St σ} {bs : List Byte}
    {w : Word} {h : σ} (hsl : slice s.buf s.cursor 1 = some bs) (h1 : (rdWord s.be bs).toNat ≤ 1)
    (hcall : E.host.scalar s.host (fetch E.prog s.ip 2).1.toNat op (rdWord s.be bs) = (true, w, h)) :
    handleBool E op s = .run
      { s with ip := (fetch E.prog s.ip 2).2, host := h, cursor := s.cursor + 1, opt := false } := by
  have hfit := (slice_eq_some.1 hsl).1
  unfold handleBool fet
  simp only [henc, Bool.false_eq_true, if_false]
  rw [if_neg (by omega)]
  refine rdAt_ok hsl ?_
  simp only
  rw [if_neg (by omega)]
  exact callScalar_ok hcall rfl

/-! ### Bit fields -/

/-- Instruction pointer after the operands key and width. -/
def bitIp (E : Env σ) (s : St σ) : Nat := (fetch E.prog (fetch E.prog s.ip 2).2 1).2

/-- Width operand of a bit field. -/
def bitWidth (E : Env σ) (s : St σ) : Nat := (fetch E.prog (fetch E.prog s.ip 2).2 1).1.toNat

theorem handleBitU_enc {E : Env σ} (henc : E.enc = true) {op : Byte} {s s1 : St σ}
    (hs : handleBitU E op s = .run s1) :
    ∃ w h b c o, E.host.scalar s.host (fetch E.prog s.ip 2).1.toNat op 0 = (true, w, h) ∧
      writeBits s.buf s.be s.cursor s.bit w (bitWidth E s) = some (b, c, o) ∧
      s1 = { s with ip := bitIp E s, host := h, buf := b, cursor := c, bit := o } := by
  unfold handleBitU fet at hs
  simp only [henc, if_true] at hs
  obtain ⟨w, h, e1, hs⟩ := callScalar_run hs
  obtain ⟨b, c, o, e2, hs⟩ := putBits_run hs
  injection hs with hs
  rw [truncB_eight] at e2
  exact ⟨w, h, b, c, o, e1, e2, hs.symm⟩

theorem handleBitU_dec {E : Env σ} (henc : E.enc = false) {op : Byte} {s : St σ} {v w : Word} {c o : Nat}
    {h : σ} (hr : readBits s.buf s.be s.cursor s.bit (bitWidth E s) = some (v, c, o))
    (hcall : E.host.scalar s.host (fetch E.prog s.ip 2).1.toNat op v = (true, w, h)) :
    handleBitU E op s = .run { s with ip := bitIp E s, host := h, cursor := c, bit := o } := by
  unfold handleBitU fet
  simp only [henc, Bool.false_eq_true, if_false]
  refine getBits_ok hr ?_
  exact callScalar_ok hcall rfl

theorem handleBitI_enc {E : Env σ} (henc : E.enc = true) {op : Byte} {s s1 : St σ}
    (hs : handleBitI E op s = .run s1) :
    ∃ w h b c o, E.host.scalar s.host (fetch E.prog s.ip 2).1.toNat op 0 = (true, w, h) ∧
      writeBits s.buf s.be s.cursor s.bit w (bitWidth E s) = some (b, c, o) ∧
      s1 = { s with ip := bitIp E s, host := h, buf := b, cursor := c, bit := o } := by
  unfold handleBitI fet at hs
  simp only [henc, if_true] at hs
  obtain ⟨w, h, e1, hs⟩ := callScalar_run hs
  obtain ⟨b, c, o, e2, hs⟩ := putBits_run hs
  injection hs with hs
  rw [truncB_eight] at e2
  exact ⟨w, h, b, c, o, e1, e2, hs.symm⟩

theorem handleBitI_dec {E : Env σ} (henc : E.enc = false) {op : Byte} {s : St σ} {raw v w : Word} {c o : Nat}
    {h : σ} (hr : readBits s.buf s.be s.cursor s.bit (bitWidth E s) = some (raw, c, o))
    (hx : signExtendBits raw (bitWidth E s) = some v)
    (hcall : E.host.scalar s.host (fetch E.prog s.ip 2).1.toNat op v = (true, w, h)) :
    handleBitI E op s = .run { s with ip := bitIp E s, host := h, cursor := c, bit := o } := by
  unfold handleBitI fet
  simp only [henc, Bool.false_eq_true, if_false]
  refine getBits_ok hr ?_
  unfold bitWidth at hx
  simp only [hx]
  exact callScalar_ok hcall rfl

theorem handleBitBool_enc {E : Env σ} (henc : E.enc = true) {op : Byte} {s s1 : St σ}
    (hs : handleBitBool E op s = .run s1) :
    ∃ w h b c o, E.host.scalar s.host (fetch E.prog s.ip 2).1.toNat op 0 = (true, w, h) ∧
      (truncB 1 w).toNat ≤ 1 ∧ writeBits s.buf s.be s.cursor s.bit (truncB 1 w) 1 = some (b, c, o) ∧
      s1 = { s with ip := (fetch E.prog s.ip 2).2, host := h, buf := b, cursor := c, bit := o } := by
  unfold handleBitBool fet at hs
  simp only [henc, if_true] at hs
  obtain ⟨w, h, e1, hs⟩ := callScalar_run hs
  split at hs
  · cases hs
  obtain ⟨b, c, o, e2, hs⟩ := putBits_run hs
  injection hs with hs
  exact ⟨w, h, b, c, o, e1, by omega, e2, hs.symm⟩

theorem handleBitBool_dec {E : Env σ} (henc : E.enc = false) {op : Byte} {s : St σ} {v w : Word} {c o : Nat}
    {h : σ} (hr : readBits s.buf s.be s.cursor s.bit 1 = some (v, c, o))
    (hcall : E.host.scalar s.host (fetch E.prog s.ip 2).1.toNat op v = (true, w, h)) :
    handleBitBool E op s = .run
      { s with ip := (fetch E.prog s.ip 2).2, host := h, cursor := c, bit := o } := by
  unfold handleBitBool fet
  simp only [henc, Bool.false_eq_true, if_false]
  refine getBits_ok hr ?_
  exact callScalar_ok hcall rfl

end Cnd
