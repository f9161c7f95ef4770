/-!
# Target environments  (source/spirv_target_env.cpp)

Texts are lists of characters without the terminating NUL.
-/
namespace Verif.TargetEnv

/-- `spv_target_env`, include/spirv-tools/libspirv.h (deprecated `WEBGPU_0` and the sentinel
`MAX` included). -/
inductive Env where
  | universal (minor : Fin 7)
  | vulkan10 | vulkan11 | vulkan11spv14 | vulkan12 | vulkan13 | vulkan14
  | opencl12 | openclEmb12 | opencl20 | openclEmb20 | opencl21 | openclEmb21 | opencl22 | openclEmb22
  | opengl40 | opengl41 | opengl42 | opengl43 | opengl45
  | webgpu0 | max
  deriving DecidableEq, Repr

abbrev Text := List Char

/-- `spvTargetEnvNameMap`, source/spirv_target_env.cpp:148-183. -/
def nameMap : List (String × Env) := [
  ("vulkan1.0", .vulkan10),
  ("vulkan1.1spv1.4", .vulkan11spv14),
  ("vulkan1.1", .vulkan11),
  ("vulkan1.2", .vulkan12),
  ("vulkan1.3", .vulkan13),
  ("vulkan1.4", .vulkan14),
  ("spv1.0", .universal 0),
  ("spv1.1", .universal 1),
  ("spv1.2", .universal 2),
  ("spv1.3", .universal 3),
  ("spv1.4", .universal 4),
  ("spv1.5", .universal 5),
  ("spv1.6", .universal 6),
  ("opencl1.2embedded", .openclEmb12),
  ("opencl1.2", .opencl12),
  ("opencl2.0embedded", .openclEmb20),
  ("opencl2.0", .opencl20),
  ("opencl2.1embedded", .openclEmb21),
  ("opencl2.1", .opencl21),
  ("opencl2.2embedded", .openclEmb22),
  ("opencl2.2", .opencl22),
  ("opengl4.0", .opengl40),
  ("opengl4.1", .opengl41),
  ("opengl4.2", .opengl42),
  ("opengl4.3", .opengl43),
  ("opengl4.5", .opengl45)]

/-- `strncmp(s, b, strlen(b)) == 0`, line 187. -/
def startsWith : Text → Text → Bool
  | _, [] => true
  | [], _ :: _ => false
  | c :: s, d :: b => c == d && startsWith s b

/-- The loop of `spvParseTargetEnv`, source/spirv_target_env.cpp:185-199 (for a non-null
`env`): the returned flag and `*env`.  `none` stands for a null `s`. -/
def parseLoop (s : Text) : List (String × Env) → Bool × Env
  | [] => (false, .universal 0)
  | (n, e) :: r => if startsWith s n.toList then (true, e) else parseLoop s r

def parseTargetEnv : Option Text → Bool × Env
  | none => (false, .universal 0)
  | some s => parseLoop s nameMap

/-! ## spvReadEnvironmentFromText, source/spirv_target_env.cpp:201-253 -/

/-- `std::isspace` in the C locale. -/
def isSpace (c : Char) : Bool :=
  c == ' ' || c == '\t' || c == '\n' || c == '\x0b' || c == '\x0c' || c == '\r'

def isDigit (c : Char) : Bool := decide (48 ≤ c.toNat) && decide (c.toNat ≤ 57)

/-- `kVersionPrefix` without its first character. -/
def versionPrefix : Text := " Version: 1.".toList

/-- Lines 218-221: how many characters match (`j - 1`). -/
def matchLen : Text → Text → Nat
  | [], _ => 0
  | _ :: _, [] => 0
  | p :: ps, c :: cs => if p = c then matchLen ps cs + 1 else 0

/-- Lines 226-237, given the text from the expected digit on. -/
def minorEnv : Text → Option Env
  | [] => none
  | m :: r =>
    let next := r.headD '\x00'
    if isDigit m && !isDigit next then
      if h : m.toNat - 48 < 7 then some (.universal ⟨m.toNat - 48, h⟩) else none
    else none

/-- Lines 243-246 and the `++i` of the outer loop. -/
def skipLine (t : Text) : Text := (t.dropWhile (· != '\n')).drop 1

/-- `spvReadEnvironmentFromText`; the argument is the text from position `i` on;
`none` = `false`. -/
def readEnv : Text → Option Env
  | [] => none
  | c :: t =>
    if c = ';' then
      if (c :: t).length ≤ 13 then none
      else
        let j := matchLen versionPrefix t
        match (if j = 12 then minorEnv (t.drop 12) else none) with
        | some e => some e
        | none => readEnv (skipLine (t.drop j))
    else if isSpace c then readEnv t
    else none
  termination_by t => t.length
  decreasing_by
    · have h1 : (skipLine (t.drop (matchLen versionPrefix t))).length ≤ t.length := by
        unfold skipLine
        rw [List.length_drop]
        have := (List.dropWhile_sublist (· != '\n') (l := t.drop (matchLen versionPrefix t))).length_le
        rw [List.length_drop] at this
        omega
      simp only [List.length_cons]; omega
    · simp

/-! ## Vulkan versions -/

def vulkanVer (major minor : Nat) : Nat := major * 2 ^ 22 + minor * 2 ^ 12
def spirvVer (major minor : Nat) : Nat := major * 2 ^ 16 + minor * 2 ^ 8

/-- `ordered_vulkan_envs`, source/spirv_target_env.cpp:266-272. -/
def vulkanEnvs : List (Env × Nat × Nat) := [
  (.vulkan10, vulkanVer 1 0, spirvVer 1 0),
  (.vulkan11, vulkanVer 1 1, spirvVer 1 3),
  (.vulkan11spv14, vulkanVer 1 1, spirvVer 1 4),
  (.vulkan12, vulkanVer 1 2, spirvVer 1 5),
  (.vulkan13, vulkanVer 1 3, spirvVer 1 6),
  (.vulkan14, vulkanVer 1 4, spirvVer 1 6)]

/-- `spvParseVulkanEnv`, source/spirv_target_env.cpp:274-283. -/
def parseVulkanLoop (v s : Nat) : List (Env × Nat × Nat) → Option Env
  | [] => none
  | (e, ev, es) :: r => if ev ≥ v ∧ es ≥ s then some e else parseVulkanLoop v s r

def parseVulkanEnv (v s : Nat) : Option Env := parseVulkanLoop v s vulkanEnvs

/-- `spvVersionForTargetEnv`, source/spirv_target_env.cpp:91-134. -/
def versionFor : Env → Nat
  | .universal m => spirvVer 1 m
  | .vulkan10 | .opencl12 | .openclEmb12 | .opencl20 | .openclEmb20 | .opencl21 | .openclEmb21
  | .opengl40 | .opengl41 | .opengl42 | .opengl43 | .opengl45 => spirvVer 1 0
  | .opencl22 | .openclEmb22 => spirvVer 1 2
  | .vulkan11 => spirvVer 1 3
  | .vulkan11spv14 => spirvVer 1 4
  | .vulkan12 => spirvVer 1 5
  | .vulkan13 | .vulkan14 => spirvVer 1 6
  | .webgpu0 | .max => 0

/-- `spvIsVulkanEnv`, source/spirv_target_env.cpp:285-323. -/
def isVulkan : Env → Bool
  | .vulkan10 | .vulkan11 | .vulkan11spv14 | .vulkan12 | .vulkan13 | .vulkan14 => true
  | _ => false

/-- `spvIsOpenCLEnv`, source/spirv_target_env.cpp:325-363. -/
def isOpenCL : Env → Bool
  | .opencl12 | .openclEmb12 | .opencl20 | .openclEmb20 | .opencl21 | .openclEmb21
  | .opencl22 | .openclEmb22 => true
  | _ => false

/-- `spvIsOpenGLEnv`, source/spirv_target_env.cpp:365-403. -/
def isOpenGL : Env → Bool
  | .opengl40 | .opengl41 | .opengl42 | .opengl43 | .opengl45 => true
  | _ => false

end Verif.TargetEnv
