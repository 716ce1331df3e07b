import Verif.Props.C01_Time
import Verif.Props.C02_JITConservation
import Verif.Props.C03_JITCapacity
import Verif.Props.C04_JITStart
import Verif.Props.C05_JITIndependent
import Verif.Props.C06_MomentumBookkeeping
import Verif.Props.C07_MomentumFeasible
import Verif.Props.C08_MomentumEarliest
import Verif.Props.C09_MomentumPredecessors
import Verif.Props.C100_ZoneGenes
import Verif.Props.C101_Preparation
import Verif.Props.C102_PromptMaterials
import Verif.Props.C103_ExclusiveWorks
import Verif.Props.C104_DeadlineSchedules
import Verif.Props.C105_Terms
import Verif.Props.C106_Even
import Verif.Props.C107_OrderOptimizers
import Verif.Props.C108_Pipeline
import Verif.Props.C109_PriorityQueue
import Verif.Props.C10_EveryWorkOnce
import Verif.Props.C110_Dichotomy
import Verif.Props.C111_Validated
import Verif.Props.C112_WholeGenetic
import Verif.Props.C113_SerialGenetic
import Verif.Props.C114_Collections
import Verif.Props.C115_GeneticPipeline
import Verif.Props.C116_Finished
import Verif.Props.C117_FromWorks
import Verif.Props.C118_Features
import Verif.Props.C119_Names
import Verif.Props.C11_Precedence
import Verif.Props.C120_Sampler
import Verif.Props.C121_TableReqs
import Verif.Props.C122_TableFields
import Verif.Props.C123_Session
import Verif.Props.C124_Costs
import Verif.Props.C125_BuildAgain
import Verif.Props.C126_Deliveries
import Verif.Props.C127_LandTables
import Verif.Props.C12_Chains
import Verif.Props.C13_AssignedDuration
import Verif.Props.C14_ContractorSearch
import Verif.Props.C15_WorkerBorders
import Verif.Props.C16_Teams
import Verif.Props.C17_Validator
import Verif.Props.C18_RowOrder
import Verif.Props.C19_Toposort
import Verif.Props.C20_WorkOrders
import Verif.Props.C21_PriorityCorrection
import Verif.Props.C22_HeadNodes
import Verif.Props.C23_SwapOrder
import Verif.Props.C24_OrderCrossover
import Verif.Props.C25_OrderMutation
import Verif.Props.C26_ResourceOperators
import Verif.Props.C27_ChromosomeChecks
import Verif.Props.C28_Decoding
import Verif.Props.C29_Optimizers
import Verif.Props.C30_DeadlineSearch
import Verif.Props.C31_RoundTrip
import Verif.Props.C32_FromNodes
import Verif.Props.C33_Traversal
import Verif.Props.C34_Restructure
import Verif.Props.C35_CopyDelete
import Verif.Props.C36_BlockGraph
import Verif.Props.C37_Auction
import Verif.Props.C38_Cycles
import Verif.Props.C39_Routes
import Verif.Props.C40_Zones
import Verif.Props.C41_Supply
import Verif.Props.C42_Usage
import Verif.Props.C43_LinkedList
import Verif.Props.C44_Lag
import Verif.Props.C45_Check
import Verif.Props.C46_Estimator
import Verif.Props.C47_Generated
import Verif.Props.C48_Merge
import Verif.Props.C49_OverDemand
import Verif.Props.C50_MomentumIndependent
import Verif.Props.C51_ScheduleCapacity
import Verif.Props.C52_ExecutionTime
import Verif.Props.C53_FinishesFirst
import Verif.Props.C54_Delivers
import Verif.Props.C55_Offspring
import Verif.Props.C56_GeneticBest
import Verif.Props.C57_GeneticDeadline
import Verif.Props.C58_FirstPopulation
import Verif.Props.C59_Insert
import Verif.Props.C60_Downtime
import Verif.Props.C61_LocalOptimizers
import Verif.Props.C62_CriticalPath
import Verif.Props.C63_Hybrid
import Verif.Props.C64_Fitness
import Verif.Props.C65_Table
import Verif.Props.C66_History
import Verif.Props.C67_FrameRoundTrip
import Verif.Props.C68_HistoryLinks
import Verif.Props.C69_SyntheticGraph
import Verif.Props.C70_Copies
import Verif.Props.C71_Obstruction
import Verif.Props.C72_Remembered
import Verif.Props.C73_Extension
import Verif.Props.C74_Materials
import Verif.Props.C75_Interval
import Verif.Props.C76_SyntheticReqs
import Verif.Props.C77_Stochastic
import Verif.Props.C78_Generated
import Verif.Props.C79_Saving
import Verif.Props.C80_Tables
import Verif.Props.C81_GeneratedBlocks
import Verif.Props.C82_OtherManagers
import Verif.Props.C83_AgentCapacity
import Verif.Props.C84_BlockValidation
import Verif.Props.C85_LocalSchedule
import Verif.Props.C86_MaterialPromise
import Verif.Props.C87_Structure
import Verif.Props.C88_Backends
import Verif.Props.C89_Schedulers
import Verif.Props.C90_PriorityFirst
import Verif.Props.C91_FirstChromosomes
import Verif.Props.C92_GeneticScheduler
import Verif.Props.C93_SortedList
import Verif.Props.C94_LandNodes
import Verif.Props.C95_AutoPipeline
import Verif.Props.C96_ZoneSchedules
import Verif.Props.C97_SuppliedSchedules
import Verif.Props.C98_ToStartSupply
import Verif.Props.C99_GeneticOnSite
