import Verif.Props.C01_C02_SortDict
import Verif.Props.C03_C05_RungeKutta
import Verif.Props.C06_C08_Eno
import Verif.Props.C09_C10_Weno
import Verif.Props.C11_C13_Teno
import Verif.Props.C11_Six
import Verif.Props.C16_Eigen
import Verif.Props.C14_C15_Llf
import Verif.Props.C17_Averaging
import Verif.Props.C18_C20_Central
import Verif.Props.C21_C23_Closures
import Verif.Props.C24_C31_C35_Ranges
import Verif.Props.C25_C26_Mirror
import Verif.Props.C27_C28_Walls
import Verif.Props.C29_Inlets
import Verif.Props.C32_C33_Arguments
import Verif.Props.C34_C38_C39_Registries
import Verif.Props.C37_RaceFree
import Verif.Props.C46_Names
import Verif.Props.C36_C62_C63_Memory
import Verif.Props.C30_Interface
import Verif.Props.C40_C41_Text
import Verif.Props.C42_C44_Algorithm
import Verif.Props.C45_Parameters
import Verif.Props.C59_C60_Setup
import Verif.Props.C51_Tensor
import Verif.Props.C52_Sfd
import Verif.Props.C53_Binomial
import Verif.Props.C54_Sensors
import Verif.Props.C56_Shock
import Verif.Props.C57_Spline
import Verif.Props.C47_Residual
import Verif.Props.C48_Work
import Verif.Props.C49_Indices
import Verif.Props.C50_Names
import Verif.Props.C55_Metric
import Verif.Props.C58_Halos
import Verif.Props.C64_ForcingStrip
import Verif.Props.C65_Dirichlet
import Verif.Props.C66_InviscidWall2D
import Verif.Props.C67_Physics
import Verif.Props.C68_Monitor
import Verif.Props.C69_StoreSome
import Verif.Props.C32_C34_Passed
import Verif.Props.C70_C72_UserEqs
import Verif.Model.AlgorithmMB
import Verif.Props.C73_MultiBlock
import Verif.Props.C73_Output
import Verif.Model.Katzer
import Verif.Props.C74_Katzer
import Verif.Model.CCode
import Verif.Props.C75_Lemmas
import Verif.Props.C75_CCode
import Verif.Model.WenoFilter
import Verif.Props.C76_WenoFilter
import Verif.Props.C76_FilterStep
import Verif.Model.Simulation
import Verif.Spec.Simulation
import Verif.Lemmas.Simulation
import Verif.Lemmas.SimulationSpatial
import Verif.Lemmas.SimulationTime
import Verif.Props.C77_Program
import Verif.Props.C77_Periodic
import Verif.Props.C77_Conservation
import Verif.Props.C77_Examples
import Verif.Model.ShockProgram
import Verif.Spec.ShockProgram
import Verif.Lemmas.ShockProgram
import Verif.Props.C78_Program
import Verif.Props.C78_Conservation
import Verif.Props.C78_Examples
import Verif.Props.C79_Curvilinear
import Verif.Props.C79_Weighted
import Verif.Props.C79_Examples
import Verif.Model.MetricInterface
import Verif.Props.C80_MetricInterface
import Verif.Props.C78_Average
import Verif.Model.ReconKernel
import Verif.Props.C81_ReconKernel
import Verif.Props.C81_Examples
import Verif.Model.Parsing
import Verif.Props.C82_Parsing
import Verif.Model.Placement
import Verif.Props.C83_Placement
import Verif.Model.ProgramText
import Verif.Spec.Scope
import Verif.Spec.ScopeInput
import Verif.Lemmas.Scope
import Verif.Lemmas.ScopeNames
import Verif.Lemmas.ScopeText
import Verif.Lemmas.ScopeConsts
import Verif.Lemmas.ScopeGlobal
import Verif.Lemmas.ScopeMain
import Verif.Lemmas.ScopeNodes
import Verif.Lemmas.ScopeProgram
import Verif.Props.C84_Scope
import Verif.Model.SimulationText
import Verif.Spec.SimulationText
import Verif.Lemmas.SimulationText
import Verif.Lemmas.SimulationTextSetup
import Verif.Props.C85_SimulationText
import Verif.Props.C85_Closures
import Verif.Props.C85_Examples
import Verif.Model.ShockText
import Verif.Spec.ShockText
import Verif.Lemmas.ShockText
import Verif.Lemmas.WenoRational
import Verif.Lemmas.ShockTextGood
import Verif.Lemmas.ShockTextPoint
import Verif.Lemmas.ShockTextLoop
import Verif.Lemmas.ShockTextSetup
import Verif.Props.C86_ShockText
import Verif.Props.C86_Examples
import Verif.Spec.Order
import Verif.Lemmas.OrderTaylor
import Verif.Lemmas.OrderTame
import Verif.Props.C87_Order
import Verif.Props.C87_Examples
import Verif.Spec.Convergence
import Verif.Lemmas.SkewStep
import Verif.Lemmas.SkewGrid
import Verif.Lemmas.Convergence
import Verif.Model.Initial
import Verif.Props.C88_Convergence
import Verif.Props.C88_Wave
import Verif.Props.C88_WaveLs
import Verif.Props.C88_Fourth
import Verif.Props.C88_WaveLs4
import Verif.Spec.TimeOrder
import Verif.Lemmas.TimeOrder
import Verif.Lemmas.TimeOrderGlobal
import Verif.Lemmas.TimeOrderSmooth
import Verif.Props.C05_SSP
import Verif.Props.C05_Linear
import Verif.Props.C05_Linear4
import Verif.Props.C77_GridLs
import Verif.Props.C89_TimeOrder
import Verif.Props.C89_Fourth
import Verif.Props.C89_Examples
import Verif.Spec.StrongStability
import Verif.Props.C90_StrongStability
import Verif.Props.C90_Simulation
import Verif.Props.C90_Examples
import Verif.Model.BoundaryText
import Verif.Spec.BoundaryText
import Verif.Spec.BoundarySpelling
import Verif.Lemmas.BoundaryText
import Verif.Props.C91_BoundaryText
import Verif.Props.C91_Conditions
import Verif.Props.C91_Isothermal
import Verif.Props.C91_Examples
import Verif.Props.C91_Tube
import Verif.Props.C91_Shock
import Verif.Props.C91_More
import Verif.Props.C91_Outlet
import Verif.Model.Notation
import Verif.Spec.Notation
import Verif.Props.C92_Notation
import Verif.Props.C92_Apps
import Verif.Props.C92_Renaming
import Verif.Model.SimulationMB
import Verif.Spec.SimulationMB
import Verif.Props.C93_Blocks
import Verif.Props.C93_Split
import Verif.Props.C93_Wave
import Verif.Props.C93_Corner
import Verif.Props.C93_Chain
import Verif.Model.FrontEnd
import Verif.Lemmas.Listing
import Verif.Spec.NavierStokes
import Verif.Props.C94_Skew
import Verif.Props.C94_TaylorGreen
import Verif.Props.C94_TaylorGreenText
import Verif.Props.C94_Energy
import Verif.Model.Source
import Verif.Spec.Grammar
import Verif.Props.C95_Grammar
import Verif.Props.C95_Text
import Verif.Spec.TextValue
import Verif.Props.C95_Value
import Verif.Model.Restart
import Verif.Lemmas.Restart
import Verif.Props.C96_Restart
import Verif.Props.C96_Files
import Verif.Props.C96_Examples
import Verif.Props.C95_Literals
import Verif.Props.C95_Joined
import Verif.Spec.Advection
import Verif.Lemmas.Contact
import Verif.Props.C97_Contact
import Verif.Props.C97_Examples
import Verif.Props.C97_Roe
import Verif.Model.ShockNotation
import Verif.Model.EulerWave
import Verif.Spec.ShockNotation
import Verif.Props.C98_Notation
import Verif.Props.C98_EulerWave
import Verif.Props.C98_Text
import Verif.Model.MetricProgram
import Verif.Spec.MappedGrid
import Verif.Lemmas.MappedGrid
import Verif.Lemmas.MappedProgram
import Verif.Props.C99_Mapped
import Verif.Props.C99_Accuracy
import Verif.Props.C99_Examples
import Verif.Model.MetricSecond
import Verif.Lemmas.MappedSecond
import Verif.Lemmas.StretchedSecond
import Verif.Props.C100_Second
import Verif.Props.C100_Accuracy
import Verif.Props.C100_Examples
import Verif.Props.C100_Curvilinear
import Verif.Props.C100_CurvExamples
import Verif.Model.Orders
import Verif.Props.C101_Orders
import Verif.Props.C101_Examples
import Verif.Spec.AdvectionDiffusion
import Verif.Lemmas.Parabolic
import Verif.Props.C102_Parabolic
import Verif.Props.C102_Heat
import Verif.Props.C102_Fourth
import Verif.Props.C102_HeatLs
import Verif.Props.C102_Rod
import Verif.Props.C102_RodLimit
import Verif.Model.Latex
import Verif.Spec.Tex
import Verif.Lemmas.Tex
import Verif.Lemmas.TexWrap
import Verif.Lemmas.TexPrint
import Verif.Props.C103_Latex
import Verif.Props.C103_Program
import Verif.Props.C103_Examples
